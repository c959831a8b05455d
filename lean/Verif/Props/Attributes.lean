import Verif.Proofs.Attributes

/-! # C44–C49: attributes of renderers

A state is built by a history of `Push` calls and of `SetStop` calls on the renderer pushed last (the
line breaker does both). The specification sees the history as a list of pieces of styled text. -/

namespace Verif.Props
open Verif.Go Verif.Model Verif.Spec

/-- One step of the construction of a state. -/
inductive AOp where
  | push (a : Option Attribute)   -- Push(a), `none` for nil
  | setStop (stop : List Rune)    -- SetStop on the renderer pushed last

/-- The state after a history, from the state `s`. -/
def build : AState → List AOp → AState
  | s, [] => s
  | s, .push a :: rest => build (s.push a) rest
  | s, .setStop stop :: rest => build (s.setLastStop stop) rest

/-- The pieces of text described by a history, after the pieces `l`. -/
def pieces : List Piece → List AOp → List Piece
  | l, [] => l
  | l, .push none :: rest => pieces l rest
  | l, .push (some a) :: rest => pieces (l ++ [⟨a.text, a.start, a.stop⟩]) rest
  | l, .setStop stop :: rest =>
    pieces (l.dropLast ++ (l.getLast?.map (fun p => { p with stop := stop })).toList) rest

theorem build_lv (ops : List AOp) (l : List Piece) : build (lv 0 l) ops = lv 0 (pieces l ops) := by
  induction ops generalizing l with
  | nil => rfl
  | cons op rest ih =>
    cases op with
    | push a =>
      cases a with
      | none => simpa [build, pieces, AState.push] using ih l
      | some a => simp only [build, pieces, push_lv, ih]
    | setStop stop =>
      simp only [build, pieces]
      rcases List.eq_nil_or_concat l with rfl | ⟨q, p, rfl⟩
      · simpa [lv, AState.setLastStop] using ih []
      · rw [List.concat_eq_append, setLastStop_lv, ih]
        simp

/-- The iterator after `n` calls of `Next`. -/
def nexts (s : AState) : Nat → AIter → AIter
  | 0, i => i
  | n + 1, i => nexts s n (i.next s).2

theorem nexts_succ (s : AState) (n : Nat) (i : AIter) :
    nexts s (n + 1) i = ((nexts s n i).next s).2 := by
  induction n generalizing i with
  | zero => rfl
  | succ n ih => rw [nexts, ih]; rfl

theorem nexts_first (s : AState) (n : Nat) :
    nexts s n s.first = ⟨false, if n < s.length then some n else none⟩ := by
  induction n with
  | zero => rfl
  | succ n ih =>
    rw [nexts_succ, ih]
    by_cases h : n < s.length
    · simp [AIter.next, h]
    · simp [AIter.next, h, show ¬ n + 1 < s.length by omega]

theorem nexts_iterator (s : AState) (n : Nat) :
    nexts s (n + 1) s.iterator = ⟨false, if n < s.length then some n else none⟩ := by
  rw [nexts, ← nexts_first]
  rfl

/-! ## C44 -/

/-- **C44.** An attribute is rendered as its start sequence, its text and its stop sequence. -/
theorem C44_attribute (a : Attribute) (out : List Rune) :
    a.render out = out ++ a.start ++ a.text ++ a.stop := by simp [render_eq]

/-- **C44**, list of renderers: the renderings of the members that are not nil, in order. -/
theorem C44_renderers (rs : List (Option Attribute)) (out : List Rune) :
    renderersRender rs out =
      out ++ (rs.filterMap id).flatMap (fun a => a.start ++ a.text ++ a.stop) := by
  induction rs generalizing out with
  | nil => simp [renderersRender]
  | cons r rest ih => cases r <;> simp [renderersRender, ih, render_eq]

/-- **C44**, starts and stops of a list of renderers. -/
theorem C44_renderers_start_stop (rs : List (Option Attribute)) (out : List Rune) :
    renderersStart rs out = out ++ (rs.filterMap id).flatMap Attribute.start ∧
      renderersStop rs out = out ++ (rs.filterMap id).flatMap Attribute.stop := by
  constructor
  · induction rs generalizing out with
    | nil => simp [renderersStart]
    | cons r rest ih => cases r <;> simp [renderersStart, ih, writeStart_eq]
  · induction rs generalizing out with
    | nil => simp [renderersStop]
    | cons r rest ih => cases r <;> simp [renderersStop, ih, writeStop_eq]

example : renderersRender [some (.new [97] [27, 49] []), none, some (.new [98] [] [27, 48])] [1] =
    [1, 27, 49, 97, 98, 27, 48] := by decide

/-! ## C45 -/

/-- **C45.** After any history, the state holds the pieces in order, and the level of the `k`-th is the
number of starts up to it minus the number of stops before it. -/
theorem C45_levels (ops : List AOp) (k : Nat) :
    (build [] ops)[k]? = (pieces [] ops)[k]?.map (fun p =>
      ⟨p.text, p.start, p.stop,
        (starts ((pieces [] ops).take (k + 1)) : Int) - stops ((pieces [] ops).take k)⟩) := by
  have hb : build [] ops = lv 0 (pieces [] ops) := build_lv ops []
  rw [hb, lv_getElem?]
  cases h : (pieces [] ops)[k]? with
  | none => rfl
  | some p =>
    simp only [Option.map_some, dep_count, Option.some.injEq, Attribute.mk.injEq, true_and]
    have e : starts ((pieces [] ops).take (k + 1)) =
        starts ((pieces [] ops).take k) + (if p.start = [] then 0 else 1) := by
      rw [List.take_add_one, h]
      unfold starts
      by_cases hs : p.start = [] <;> simp [hs, List.filter_append]
    rw [e]
    split <;> simp <;> omega

/-- A nested history: the levels are 1, 2, 2, 1, 0. -/
example : (build [] [.push (some (.new [1] [27] [])), .push (some (.new [2] [28] [])),
    .push none, .push (some (.new [3] [] [])), .setStop [29], .push (some (.new [4] [] [30])),
    .push (some (.new [5] [] []))]).map Attribute.level = [1, 2, 2, 1, 0] := by decide

/-! ## C46 -/

/-- **C46.** The `n+1`-th call of `Next` says whether there is an `n`-th renderer, which `Item` then
returns: every renderer is visited once, in order, and `Next` is false for ever after the last. -/
theorem C46_iterator (s : AState) (n : Nat) :
    ((nexts s n s.iterator).next s).1 = decide (n < s.length) ∧
      (nexts s (n + 1) s.iterator).item s = s[n]? := by
  constructor
  · cases n with
    | zero => cases s <;> simp [nexts, AState.iterator, AState.front, AIter.next]
    | succ n =>
      rw [nexts_iterator]
      by_cases h : n < s.length
      · by_cases h' : n + 1 < s.length <;> simp [AIter.next, h, h']
      · simp [AIter.next, h]; omega
  · rw [nexts_iterator]
    by_cases h : n < s.length <;> simp [AIter.item, h]

/-- **C46**, `First`: the first renderer is current at once, `Next` goes on to the second. -/
theorem C46_first (s : AState) (n : Nat) :
    (nexts s n s.first).item s = s[n]? ∧
      ((nexts s n s.first).next s).1 = decide (n + 1 < s.length) := by
  rw [nexts_first]
  by_cases h : n < s.length
  · by_cases h' : n + 1 < s.length <;> simp [AIter.item, AIter.next, h, h']
  · simp [AIter.item, AIter.next, h]; omega

/-! ## C47 -/

/-- **C47** for separated texts: after any number of renderers, `StartOfLine` writes exactly the start
sequences open there. Missing: texts with nested styles, with styled runs that touch each other, and a
line started before any renderer was consumed; the statement is false for them (`C47_…_fails`). -/
theorem C47_resume_partial (ops : List AOp) (hs : Separated (pieces [] ops)) (n : Nat)
    (hn : n < (pieces [] ops).length) (out : List Rune) :
    (nexts (build [] ops) (n + 1) (build [] ops).iterator).startOfLine (build [] ops) out =
      out ++ (openAfter [] ((pieces [] ops).take (n + 1))).flatten := by
  have hb : build [] ops = lv 0 (pieces [] ops) := build_lv ops []
  rw [nexts_iterator, hb, lv_length, if_pos hn]
  generalize pieces [] ops = l at *
  cases separated_at hs n hn with
  | out hc => rw [startOfLine_zero _ _ _ hc.1, hc.2]; simp
  | inRun pre mid tail t start j h1 h2 h3 h4 h5 h6 h7 h8 =>
    subst h1 h2
    rw [startOfLine_inRun false h3 h4 h5 h6 h7]
    congr 1
    rw [show pre.length + j + 1 = pre.length + (j + 1) by omega, List.take_length_add_append,
      List.take_succ_cons, List.take_append_of_le_length h3, openAfter_append, h5.2]
    simp [openAfter, h4, (h7.take j).openAfter]

/-- A separated text: bold "ab", plain "c", and bold "d" left open. -/
def sampleOps : List AOp := [.push (some (.new [97] [27, 49] [])), .push (some (.new [98] [] [])),
  .setStop [27, 48], .push (some (.new [99] [] [])), .push (some (.new [100] [27, 49] []))]

theorem sampleOps_separated : Separated (pieces [] sampleOps) :=
  .cons (a := []) (b := [⟨[97], [27, 49], []⟩, ⟨[98], [], [27, 48]⟩]) (l := [⟨[100], [27, 49], []⟩])
    [99] .nil (.many (l := []) [97] [98] (by simp) (by simp) .nil)
    (.unclosed (a := []) (b := []) [100] (by simp) .nil .nil)

example : (nexts (build [] sampleOps) 1 (build [] sampleOps).iterator).startOfLine
    (build [] sampleOps) [] = [27, 49] := by decide

/-- **C47 fails** for nested styles: the outer style is not resumed. -/
theorem C47_nested_fails (t₁ t₂ s₁ s₂ : List Rune) (h₁ : s₁ ≠ []) (h₂ : s₂ ≠ []) :
    let ops : List AOp := [.push (some (.new t₁ s₁ [])), .push (some (.new t₂ s₂ []))]
    openAfter [] (pieces [] ops) = [s₁, s₂] ∧
      (nexts (build [] ops) 2 (build [] ops).iterator).startOfLine (build [] ops) [] = s₂ := by
  have e₁ : 0 < s₁.length := List.length_pos_iff.mpr h₁
  have e₂ : 0 < s₂.length := List.length_pos_iff.mpr h₂
  constructor
  · simp [pieces, openAfter, Attribute.new, h₁, h₂]
  · have hb : build [] [.push (some (.new t₁ s₁ [])), .push (some (.new t₂ s₂ []))] =
        [⟨t₁, s₁, [], 1⟩, ⟨t₂, s₂, [], 2⟩] := by
      simp [build, AState.push, AState.backLevel, Attribute.new, Attribute.setLevel,
        Attribute.hasStart, Attribute.hasStop, e₁, e₂]
    rw [hb, nexts_iterator]
    simp [AIter.startOfLine, Attribute.hasStop, backtrackLoop, startLoop, writeStart_eq]

/-- **C47 fails** when a styled run follows another at once: the closed style is resumed too. -/
theorem C47_adjacent_fails (t₁ t₂ s₁ p₁ s₂ : List Rune) (h₁ : s₁ ≠ []) (hp : p₁ ≠ [])
    (h₂ : s₂ ≠ []) :
    let ops : List AOp := [.push (some (.new t₁ s₁ p₁)), .push (some (.new t₂ s₂ []))]
    openAfter [] (pieces [] ops) = [s₂] ∧
      (nexts (build [] ops) 2 (build [] ops).iterator).startOfLine (build [] ops) [] = s₁ ++ s₂ := by
  have e₁ : 0 < s₁.length := List.length_pos_iff.mpr h₁
  have e₂ : 0 < s₂.length := List.length_pos_iff.mpr h₂
  have e₃ : 0 < p₁.length := List.length_pos_iff.mpr hp
  constructor
  · simp [pieces, openAfter, Attribute.new, h₁, h₂, hp]
  · have hb : build [] [.push (some (.new t₁ s₁ p₁)), .push (some (.new t₂ s₂ []))] =
        [⟨t₁, s₁, p₁, 1⟩, ⟨t₂, s₂, [], 1⟩] := by
      simp [build, AState.push, AState.backLevel, Attribute.new, Attribute.setLevel,
        Attribute.hasStart, Attribute.hasStop, e₁, e₂, e₃]
    rw [hb, nexts_iterator]
    simp [AIter.startOfLine, Attribute.hasStop, backtrackLoop, startLoop, writeStart_eq]

/-- **C47 fails** on a fresh iterator: no renderer was consumed, yet the start sequence of the first one
is written (it is written again when that renderer is rendered). -/
theorem C47_fresh_fails (t s : List Rune) (h : s ≠ []) :
    let ops : List AOp := [.push (some (.new t s []))]
    (build [] ops).iterator.startOfLine (build [] ops) [] = s := by
  have e : 0 < s.length := List.length_pos_iff.mpr h
  have hb : build [] [.push (some (.new t s []))] = [⟨t, s, [], 1⟩] := by
    simp [build, AState.push, AState.backLevel, Attribute.new, Attribute.setLevel,
      Attribute.hasStart, e]
  simp only [hb]
  simp [AState.iterator, AState.front, AIter.startOfLine, Attribute.hasStop, backtrackLoop, startLoop,
    writeStart_eq]

/-! ## C48 -/

/-- **C48** for separated texts: after any number of renderers, `EndOfLine` writes exactly the stop
sequences that close, later in the text, the styles open there. Missing: nested styles and styled runs
that touch each other, for which the statement is false (`C48_…_fails`). -/
theorem C48_close_partial (ops : List AOp) (hs : Separated (pieces [] ops)) (n : Nat)
    (hn : n < (pieces [] ops).length) (out : List Rune) :
    (nexts (build [] ops) (n + 1) (build [] ops).iterator).endOfLine (build [] ops) out =
      out ++ (closing (List.replicate (openAfter [] ((pieces [] ops).take (n + 1))).length true)
        ((pieces [] ops).drop (n + 1))).flatten := by
  have hb : build [] ops = lv 0 (pieces [] ops) := build_lv ops []
  rw [nexts_iterator, hb, lv_length, if_pos hn]
  generalize pieces [] ops = l at *
  cases separated_at hs n hn with
  | out hc => rw [endOfLine_zero _ _ _ hc.1, hc.2]; simp [closing_false]
  | inRun pre mid tail t start j h1 h2 h3 h4 h5 h6 h7 h8 =>
    subst h1 h2
    rw [endOfLine_inRun false h3 h4 h5 h6 h7 h8]
    congr 1
    rw [show pre.length + j + 1 = pre.length + (j + 1) by omega, List.take_length_add_append,
      List.take_succ_cons, List.take_append_of_le_length h3, openAfter_append, h5.2,
      List.drop_length_add_append, List.drop_succ_cons, List.drop_append_of_le_length h3,
      (h7.drop j).closing_append]
    simp [openAfter, h4, (h7.take j).openAfter]

example : (nexts (build [] sampleOps) 1 (build [] sampleOps).iterator).endOfLine
    (build [] sampleOps) [] = [27, 48] := by decide

/-- **C48 fails** for nested styles: in `s₁ a s₂ b p₂ c p₁`, after `b` only the inner style is closed. -/
theorem C48_nested_fails (a b c s₁ s₂ p₁ p₂ : List Rune) (h₁ : s₁ ≠ []) (h₂ : s₂ ≠ [])
    (h₃ : p₁ ≠ []) (h₄ : p₂ ≠ []) :
    let ops : List AOp := [.push (some (.new a s₁ [])), .push (some (.new b s₂ [])),
      .push (some (.new c [] p₂)), .push (some (.new c [] p₁))]
    closing [true, true] ((pieces [] ops).drop 2) = [p₂, p₁] ∧
      (nexts (build [] ops) 2 (build [] ops).iterator).endOfLine (build [] ops) [] = p₂ := by
  have e₁ : 0 < s₁.length := List.length_pos_iff.mpr h₁
  have e₂ : 0 < s₂.length := List.length_pos_iff.mpr h₂
  have e₃ : 0 < p₁.length := List.length_pos_iff.mpr h₃
  have e₄ : 0 < p₂.length := List.length_pos_iff.mpr h₄
  constructor
  · simp [pieces, closing, Attribute.new, h₃, h₄]
  · have hb : build [] [.push (some (.new a s₁ [])), .push (some (.new b s₂ [])),
        .push (some (.new c [] p₂)), .push (some (.new c [] p₁))] =
        [⟨a, s₁, [], 1⟩, ⟨b, s₂, [], 2⟩, ⟨c, [], p₂, 2⟩, ⟨c, [], p₁, 1⟩] := by
      simp [build, AState.push, AState.backLevel, Attribute.new, Attribute.setLevel,
        Attribute.hasStart, Attribute.hasStop, e₁, e₂, e₄]
    rw [hb, nexts_iterator]
    simp [AIter.endOfLine, Attribute.hasStop, backtrackLoop, stopLoop, writeStop_eq]

/-- **C48 fails** when a styled run follows another at once: in `s₁ a p₁ s₂ b c p₂`, the line that ends
after `b` writes the stop sequence of the first run too. -/
theorem C48_adjacent_fails (a b c s₁ s₂ p₁ p₂ : List Rune) (h₁ : s₁ ≠ []) (h₂ : s₂ ≠ [])
    (h₃ : p₁ ≠ []) (h₄ : p₂ ≠ []) :
    let ops : List AOp := [.push (some (.new a s₁ p₁)), .push (some (.new b s₂ [])),
      .push (some (.new c [] p₂))]
    closing [true] ((pieces [] ops).drop 2) = [p₂] ∧
      (nexts (build [] ops) 2 (build [] ops).iterator).endOfLine (build [] ops) [] = p₁ ++ p₂ := by
  have e₁ : 0 < s₁.length := List.length_pos_iff.mpr h₁
  have e₂ : 0 < s₂.length := List.length_pos_iff.mpr h₂
  have e₃ : 0 < p₁.length := List.length_pos_iff.mpr h₃
  have e₄ : 0 < p₂.length := List.length_pos_iff.mpr h₄
  constructor
  · simp [pieces, closing, Attribute.new, h₄]
  · have hb : build [] [.push (some (.new a s₁ p₁)), .push (some (.new b s₂ [])),
        .push (some (.new c [] p₂))] =
        [⟨a, s₁, p₁, 1⟩, ⟨b, s₂, [], 1⟩, ⟨c, [], p₂, 1⟩] := by
      simp [build, AState.push, AState.backLevel, Attribute.new, Attribute.setLevel,
        Attribute.hasStart, Attribute.hasStop, e₁, e₂, e₃]
    rw [hb, nexts_iterator]
    simp [AIter.endOfLine, Attribute.hasStop, backtrackLoop, stopLoop, writeStop_eq]

/-! ## C49 -/

/-- **C49**, renderers: when as many styles were closed as opened up to the current renderer, starting
or ending a line writes nothing, whatever the text. -/
theorem C49_level_zero (ops : List AOp) (n : Nat)
    (h : starts ((pieces [] ops).take (n + 1)) = stops ((pieces [] ops).take (n + 1)))
    (out : List Rune) :
    let it := nexts (build [] ops) (n + 1) (build [] ops).iterator
    it.startOfLine (build [] ops) out = out ∧ it.endOfLine (build [] ops) out = out := by
  have hb : build [] ops = lv 0 (pieces [] ops) := build_lv ops []
  have hd : dep 0 ((pieces [] ops).take (n + 1)) = 0 := by rw [dep_count]; omega
  simp only [nexts_iterator, hb, lv_length]
  by_cases hn : n < (pieces [] ops).length
  · rw [if_pos hn]
    exact ⟨startOfLine_zero _ _ _ hd out, endOfLine_zero _ _ _ hd out⟩
  · rw [if_neg hn]
    exact ⟨rfl, rfl⟩

/-- After the closed run of the sample text. -/
example : starts ((pieces [] sampleOps).take 2) = 1 ∧ stops ((pieces [] sampleOps).take 2) = 1 := by
  decide

end Verif.Props
