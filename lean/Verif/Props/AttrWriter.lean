import Verif.Model.AttrWriter
import Verif.Props.Attributes
import Verif.Props.RunesIO

/-! # C115: renderers and failing writers

What is sent to the writer does not depend on what the writer answers. -/

namespace Verif.Props
open Verif.Go Verif.Model Verif.Spec Verif.Proofs

variable {σ ε : Type}

/-- A writer is given texts one after the other, each in UTF-8 and in one call, whatever it answers. -/
def given (w : IOWriter σ ε) : List (List Rune) → σ → σ
  | [], st => st
  | t :: rest, st => given w rest (w st (utf8s (replaced t))).2

/-- The texts of a renderer that are not empty: start sequence, text, stop sequence. -/
def textsSent (a : Attribute) : List (List Rune) := [a.start, a.text, a.stop].filter (· ≠ [])

/-- The runes of a renderer have 32 bits, as all runes of Go have. -/
def Attribute.Runes32 (a : Attribute) : Prop := ∀ r ∈ a.start ++ a.text ++ a.stop, IsInt32 r

theorem given_append (w : IOWriter σ ε) (a b : List (List Rune)) (st : σ) :
    given w (a ++ b) st = given w b (given w a st) := by
  induction a generalizing st with
  | nil => rfl
  | cons t a ih => exact ih _

theorem send_given (w : IOWriter σ ε) (t : List Rune) (h : ∀ r ∈ t, IsInt32 r) (st : σ) :
    send w st t = given w [t] st := by
  unfold send writeRunes given
  rw [writeRunesLoop_eq, encode_replaced t h]
  rfl

theorem startTo_given (w : IOWriter σ ε) {a : Attribute} (h : Attribute.Runes32 a) (st : σ) :
    a.startTo w st = given w ([a.start].filter (· ≠ [])) st := by
  unfold Attribute.startTo Attribute.hasStart
  cases e : a.start with
  | nil => rfl
  | cons x t =>
    rw [← e]
    have : [a.start].filter (· ≠ []) = [a.start] := by simp [e]
    rw [this, if_pos (by simp [e])]
    exact send_given w _ (fun r hr => h r (by simp [hr])) st

theorem stopTo_given (w : IOWriter σ ε) {a : Attribute} (h : Attribute.Runes32 a) (st : σ) :
    a.stopTo w st = given w ([a.stop].filter (· ≠ [])) st := by
  unfold Attribute.stopTo Attribute.hasStop
  cases e : a.stop with
  | nil => rfl
  | cons x t =>
    rw [← e]
    have : [a.stop].filter (· ≠ []) = [a.stop] := by simp [e]
    rw [this, if_pos (by simp [e])]
    exact send_given w _ (fun r hr => h r (by simp [hr])) st

/-- **C115.** A renderer gives the writer its start sequence, its text and its stop sequence, each in one call unless it is
empty, whatever the writer answers to the calls before. -/
theorem C115_render (w : IOWriter σ ε) {a : Attribute} (h : Attribute.Runes32 a) (st : σ) :
    a.renderTo w st = given w (textsSent a) st := by
  have e : textsSent a = [a.start].filter (· ≠ []) ++ ([a.text].filter (· ≠ []) ++ [a.stop].filter (· ≠ [])) := by
    unfold textsSent
    simp only [List.filter_cons, List.filter_nil]
    split <;> split <;> split <;> rfl
  unfold Attribute.renderTo
  dsimp only
  rw [e, given_append, given_append, stopTo_given w h, startTo_given w h]
  congr 1
  cases ht : a.text with
  | nil => rfl
  | cons x t =>
    rw [← ht]
    have : [a.text].filter (· ≠ []) = [a.text] := by simp [ht]
    rw [this, if_pos (by simp [ht])]
    exact send_given w _ (fun r hr => h r (by simp [hr])) _

/-- **C115**, lists of renderers: the same for the renderers that are not nil, one after the other. -/
theorem C115_renderers (w : IOWriter σ ε) (rs : List (Option Attribute)) (h : ∀ a, some a ∈ rs → Attribute.Runes32 a) (st : σ) :
    renderersRenderTo w rs st = given w ((rs.filterMap id).flatMap textsSent) st ∧
    renderersStartTo w rs st = given w (((rs.filterMap id).map Attribute.start).filter (· ≠ [])) st ∧
    renderersStopTo w rs st = given w (((rs.filterMap id).map Attribute.stop).filter (· ≠ [])) st := by
  induction rs generalizing st with
  | nil => exact ⟨rfl, rfl, rfl⟩
  | cons r rs ih =>
    have ih := ih (fun a ha => h a (by simp [ha]))
    cases r with
    | none => exact ih st
    | some a =>
      have ha := h a (by simp)
      have one : ∀ (t : List Rune) (l : List (List Rune)), (t :: l).filter (· ≠ []) = [t].filter (· ≠ []) ++ l.filter (· ≠ []) :=
        fun t l => by rw [← List.filter_append]; rfl
      refine ⟨?_, ?_, ?_⟩
      · rw [renderersRenderTo, (ih _).1, C115_render w ha]
        simp [given_append]
      · rw [renderersStartTo, (ih _).2.1, startTo_given w ha]
        simp only [List.filterMap_cons, id, List.map_cons]
        rw [one a.start ((rs.filterMap id).map Attribute.start), given_append]
      · rw [renderersStopTo, (ih _).2.2, stopTo_given w ha]
        simp only [List.filterMap_cons, id, List.map_cons]
        rw [one a.stop ((rs.filterMap id).map Attribute.stop), given_append]

/-- What is written at an edge of a line: texts that are not empty, the given sequences of renderers, end to end those of the
specification of C47 and C48, for every writer. -/
structure Sent (of : Attribute → List Rune) (s : AState) (out : List Rune) (to : {σ ε : Type} → IOWriter σ ε → σ → σ) : Prop where
  sent : ∃ ts : List (List Rune), ts.flatten = out ∧ (∀ t ∈ ts, t ≠ [] ∧ ∃ a ∈ s, of a = t) ∧
    ∀ {σ ε : Type} (w : IOWriter σ ε) (st : σ), to w st = given w ts st

theorem one_text {of : Attribute → List Rune} {s : AState} {a : Attribute} (ha : a ∈ s) :
    ∀ t ∈ [of a].filter (· ≠ []), t ≠ [] ∧ ∃ a ∈ s, of a = t := by
  intro t ht
  obtain ⟨h1, h2⟩ := List.mem_filter.mp ht
  rw [List.mem_singleton] at h1
  subst h1
  exact ⟨by simpa using h2, a, ha, rfl⟩

theorem one_flatten (t : List Rune) : ([t].filter (· ≠ [])).flatten = t := by
  cases t <;> simp

theorem startLoop_sent (s : AState) (h : ∀ a ∈ s, Attribute.Runes32 a) (n k : Nat) :
    ∃ ts : List (List Rune), (∀ out, startLoop s n k out = out ++ ts.flatten) ∧
      (∀ t ∈ ts, t ≠ [] ∧ ∃ a ∈ s, Attribute.start a = t) ∧
      ∀ {σ ε : Type} (w : IOWriter σ ε) (st : σ), startLoopTo w s n k st = given w ts st := by
  induction n generalizing k with
  | zero =>
    unfold startLoop startLoopTo
    cases e : s[k]? with
    | none => exact ⟨[], by simp, by simp, fun w st => rfl⟩
    | some a =>
      have ha : a ∈ s := List.mem_of_getElem? e
      exact ⟨[a.start].filter (· ≠ []), fun out => by rw [one_flatten]; exact writeStart_eq a out, one_text ha,
        fun w st => startTo_given w (h a ha) st⟩
  | succ n ih =>
    unfold startLoop startLoopTo
    cases e : s[k]? with
    | none => exact ⟨[], by simp, by simp, fun w st => rfl⟩
    | some a =>
      have ha : a ∈ s := List.mem_of_getElem? e
      obtain ⟨ts, h1, h2, h3⟩ := ih (k + 1)
      refine ⟨[a.start].filter (· ≠ []) ++ ts, fun out => ?_, ?_, fun w st => ?_⟩
      · dsimp only
        rw [h1, writeStart_eq, List.flatten_append, one_flatten, List.append_assoc]
      · intro t ht
        rcases List.mem_append.mp ht with ht | ht
        · exact one_text ha t ht
        · exact h2 t ht
      · dsimp only
        rw [h3, given_append, startTo_given w (h a ha)]

theorem stopLoop_sent (level : Int) (s l : List Attribute) (hl : ∀ a ∈ l, a ∈ s) (h : ∀ a ∈ s, Attribute.Runes32 a) :
    ∃ ts : List (List Rune), (∀ out, stopLoop level l out = out ++ ts.flatten) ∧
      (∀ t ∈ ts, t ≠ [] ∧ ∃ a ∈ s, Attribute.stop a = t) ∧
      ∀ {σ ε : Type} (w : IOWriter σ ε) (st : σ), stopLoopTo w level l st = given w ts st := by
  induction l with
  | nil => exact ⟨[], by simp [stopLoop], by simp, fun w st => rfl⟩
  | cons a l ih =>
    obtain ⟨ts, h1, h2, h3⟩ := ih (fun b hb => hl b (by simp [hb]))
    have ha := hl a (by simp)
    by_cases hc : a.level < level
    · exact ⟨[], fun out => by simp [stopLoop, hc], by simp, fun w st => by simp [stopLoopTo, hc, given]⟩
    · refine ⟨[a.stop].filter (· ≠ []) ++ ts, fun out => ?_, ?_, fun w st => ?_⟩
      · rw [stopLoop, if_neg hc, h1, writeStop_eq, List.flatten_append, one_flatten, List.append_assoc]
      · intro t ht
        rcases List.mem_append.mp ht with ht | ht
        · exact one_text ha t ht
        · exact h2 t ht
      · rw [stopLoopTo, if_neg hc, h3, given_append, stopTo_given w (h a ha)]

/-- **C115**, start of a line: the start sequences of C47, each in one call, whatever the writer answers. -/
theorem C115_start_of_line (s : AState) (h : ∀ a ∈ s, Attribute.Runes32 a) (i : AIter) :
    Sent Attribute.start s (i.startOfLine s []) (fun w st => i.startOfLineTo w s st) := by
  constructor
  unfold AIter.startOfLine AIter.startOfLineTo
  cases i.current with
  | none => exact ⟨[], rfl, by simp, fun w st => rfl⟩
  | some k =>
    dsimp only
    cases e : s[k]? with
    | none => exact ⟨[], rfl, by simp, fun w st => rfl⟩
    | some a =>
      dsimp only
      generalize (if a.hasStop = true then a.level - 1 else a.level) = level
      by_cases h0 : level = 0
      · simp only [h0, if_true]
        exact ⟨[], rfl, by simp, fun w st => rfl⟩
      · simp only [h0, if_false]
        obtain ⟨ts, h1, h2, h3⟩ := startLoop_sent s h (k - backtrackLoop s level k) (backtrackLoop s level k)
        exact ⟨ts, by rw [h1]; rfl, h2, h3⟩

/-- **C115**, end of a line: the stop sequences of C48, each in one call, whatever the writer answers. -/
theorem C115_end_of_line (s : AState) (h : ∀ a ∈ s, Attribute.Runes32 a) (i : AIter) :
    Sent Attribute.stop s (i.endOfLine s []) (fun w st => i.endOfLineTo w s st) := by
  constructor
  unfold AIter.endOfLine AIter.endOfLineTo
  cases i.current with
  | none => exact ⟨[], rfl, by simp, fun w st => rfl⟩
  | some k =>
    dsimp only
    cases e : s[k]? with
    | none => exact ⟨[], rfl, by simp, fun w st => rfl⟩
    | some a =>
      dsimp only
      generalize (if a.hasStop = true then a.level - 1 else a.level) = level
      by_cases h0 : level = 0
      · simp only [h0, if_true]
        exact ⟨[], rfl, by simp, fun w st => rfl⟩
      · simp only [h0, if_false]
        obtain ⟨ts, h1, h2, h3⟩ := stopLoop_sent level s (s.drop (backtrackLoop s level k))
          (fun b hb => List.mem_of_mem_drop hb) h
        exact ⟨ts, by rw [h1]; rfl, h2, h3⟩

/-! ## A writer that fails -/

/-- A writer with room for some bytes: it takes the calls that fit and answers the others with an error. -/
def roomFor : IOWriter (Nat × List Nat) Unit := fun st bytes =>
  if bytes.length ≤ st.1 then ((bytes.length, none), (st.1 - bytes.length, st.2 ++ bytes)) else ((0, some ()), st)

/-- **C115**, a case: with room for 5 bytes, the start sequence is written, the text of 3 bytes is refused, and the stop
sequence is written all the same; no error is seen. -/
theorem C115_refused_case :
    (Attribute.new [97, 98, 99] [27, 91, 49] [27, 91]).renderTo roomFor (5, []) = (0, [27, 91, 49, 27, 91]) ∧
    (Attribute.new [97, 98, 99] [27, 91, 49] [27, 91]).renderTo roomFor (9, []) = (1, [27, 91, 49, 97, 98, 99, 27, 91]) ∧
    Attribute.Runes32 (Attribute.new [97, 98, 99] [27, 91, 49] [27, 91]) := by
  refine ⟨by decide, by decide, ?_⟩
  unfold Attribute.Runes32 IsInt32 Attribute.new
  decide

/-- A case of the theorems on lines: the open style is started and stopped, by one call each. -/
example : (AIter.mk false (some 1)).startOfLineTo recorder
      [⟨[97], [27, 49], [], 1⟩, ⟨[98], [], [], 1⟩, ⟨[99], [], [27, 48], 1⟩] [] = [[27, 49]] ∧
    (AIter.mk false (some 1)).endOfLineTo recorder
      [⟨[97], [27, 49], [], 1⟩, ⟨[98], [], [], 1⟩, ⟨[99], [], [27, 48], 1⟩] [] = [[27, 48]] := by decide

/-! ## Iterators and later pushes -/

/-- What a user does while walking: push a renderer, or call Next. -/
inductive Walk where
  | push (a : Attribute)
  | next

/-- State and iterator after some steps, with the answers of Next (and the renderer that Item gives after each). -/
def walkAll : AState → AIter → List Walk → List (Bool × Option Attribute) × AState × AIter
  | s, i, [] => ([], s, i)
  | s, i, .push a :: rest => walkAll (s.push (some a)) i rest
  | s, i, .next :: rest =>
    let r := i.next s
    let p := walkAll s r.2 rest
    ((r.1, r.2.item s) :: p.1, p.2)

/-- The answers of Next when renderers are pushed in between, from the `k`-th call on: the renderers in order as long as
there are some, then false for ever. `over` says that Next was false before. -/
def growing : AState → Nat → Bool → List Walk → List (Bool × Option Attribute)
  | _, _, _, [] => []
  | s, k, over, .push a :: rest => growing (s.push (some a)) k over rest
  | s, k, over, .next :: rest =>
    if over then (false, none) :: growing s k true rest
    else match s[k]? with
      | some a => (true, some a) :: growing s (k + 1) false rest
      | none => (false, none) :: growing s k true rest

theorem push_length (s : AState) (a : Attribute) : (s.push (some a)).length = s.length + 1 := by
  simp [AState.push]

theorem walk_over (s : AState) (b : Bool) (k : Nat) (ops : List Walk) :
    (walkAll s ⟨b, none⟩ ops).1 = growing s k true ops := by
  induction ops generalizing s b with
  | nil => rfl
  | cons op ops ih =>
    cases op with
    | push a => exact ih _ _
    | next =>
      simp only [walkAll, growing, if_true]
      cases b <;> simp [AIter.next, AIter.item, ih]

theorem walk_on (s : AState) (k : Nat) (hk : k < s.length) (ops : List Walk) :
    (walkAll s ⟨false, some k⟩ ops).1 = growing s (k + 1) false ops := by
  induction ops generalizing s k with
  | nil => rfl
  | cons op ops ih =>
    cases op with
    | push a => exact ih _ _ (by rw [push_length]; omega)
    | next =>
      simp only [walkAll, growing, AIter.next, Bool.false_eq_true, if_false]
      by_cases hk1 : k + 1 < s.length
      · simp only [hk1, if_true, List.getElem?_eq_getElem hk1]
        rw [ih _ _ hk1]
        simp [AIter.item, hk1]
      · simp only [hk1, if_false, List.getElem?_eq_none (by omega : s.length ≤ k + 1)]
        rw [walk_over s false (k + 1)]
        simp [AIter.item]

/-- **C46**, while renderers are pushed: Next goes on to renderers pushed after the iterator was made; once it was false, and
for an iterator made on an empty state, it is false for ever, even if renderers are pushed later. -/
theorem C46_growing (s : AState) (ops : List Walk) :
    (walkAll s s.iterator ops).1 = growing s 0 (decide (s = [])) ops := by
  cases s with
  | nil => exact walk_over [] true 0 ops
  | cons a s =>
    simp only [reduceCtorEq, decide_false]
    have hi : AState.iterator (a :: s) = ⟨true, some 0⟩ := rfl
    rw [hi]
    have h0 : 0 < (a :: s).length := by simp
    generalize a :: s = t at h0
    induction ops generalizing t with
    | nil => rfl
    | cons op ops ih =>
      cases op with
      | push b => exact ih _ (by rw [push_length]; omega)
      | next =>
        simp only [walkAll, growing, AIter.next, if_true, Bool.false_eq_true, if_false, List.getElem?_eq_getElem h0]
        rw [walk_on t 0 h0]
        simp [AIter.item, h0]

/-- A case: the second renderer is pushed after the first Next, the third too late. -/
example : ((walkAll [.new [97] [] []] (AState.iterator [.new [97] [] []])
    [.next, .push (.new [98] [] []), .next, .next, .push (.new [99] [] []), .next]).1.map Prod.fst) = [true, true, false, false] ∧
  ((walkAll [] (AState.iterator []) [.push (.new [98] [] []), .next]).1.map Prod.fst) = [false] := by decide

end Verif.Props
