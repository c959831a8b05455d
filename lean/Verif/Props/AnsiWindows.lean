import Verif.Props.Windows
import Verif.Props.Ansi

/-! # Property C111: the parts found by StripToken share the memory of the text -/

namespace Verif.Props
open Verif.Go Verif.Model Verif.Model.Ansi Verif.Spec Verif.Spec.Ansi Verif.Proofs Verif.Proofs.Ansi

/-- The slices of a result, as windows, in the order of the text. -/
def tokWindows (t : StrippedToken) : List View :=
  t.start.toList ++ (match t.text with | some (.view p) => [p] | _ => []) ++ t.stop.toList

/-- The windows of one result end where those of the next one may begin. -/
theorem result_windows {env : Env} {l : List Rune} {v : View} {a : Nat} {x : Bool} {b c d : Nat}
    (hs : Strip env l a x b c d) (hb : b ≤ c) :
    (∀ p ∈ tokWindows (result v a x b c d), v.off ≤ p.off ∧ p.off + p.len ≤ v.off + (a + c)) ∧
    (tokWindows (result v a x b c d)).Pairwise (fun p q => p.off + p.len ≤ q.off) ∧
    ((tokWindows (result v a x b c d)).map View.len).sum = a + c := by
  have hx : x = false → b = 0 := by
    intro h
    subst h
    exact strip_nil_text hs
  have e1 : (result v a x b c d).start = optView v.off a := rfl
  have e2 : (result v a x b c d).stop = optView (v.off + a + b) (c - b) := rfl
  have e3 : (match (result v a x b c d).text with | some (.view p) => [p] | _ => []) =
      if x then [⟨v.off + a, b⟩] else [] := by
    cases x <;> rfl
  unfold tokWindows
  rw [e1, e2, e3]
  have o1 : (optView v.off a).toList = if a = 0 then [] else [⟨v.off, a⟩] := by
    unfold optView; split <;> rfl
  have o2 : (optView (v.off + a + b) (c - b)).toList = if c - b = 0 then [] else [⟨v.off + a + b, c - b⟩] := by
    unfold optView; split <;> rfl
  rw [o1, o2]
  by_cases h1 : a = 0 <;> by_cases h2 : c - b = 0 <;> cases x <;> simp [h1, h2] <;> (try have := hx rfl) <;> omega

/-- The windows of all results are in order and fill the window of the argument. -/
theorem run_windows {env : Env} {mem : List Rune} {v : View} {toks : List StrippedToken} (h : Proofs.Ansi.Run env mem v toks)
    (hc : ¬ Overruns env (v.elems mem)) :
    InOrder v (toks.flatMap tokWindows) ∧ ((toks.flatMap tokWindows).map View.len).sum = v.len ∧
    ∀ t ∈ toks, ∀ s, t.text = some s → ∃ p, s = .view p := by
  have text : ∀ (v : View) (a : Nat) (x : Bool) (b c d : Nat) (s : Sl), (result v a x b c d).text = some s → ∃ p, s = .view p := by
    intro v a x b c d s hs
    cases x with
    | false => cases hs
    | true => cases hs; exact ⟨_, rfl⟩
  induction h with
  | last h1 h2 h3 h4 =>
    have := strip_whole h1 hc
    subst this
    obtain ⟨g1, g2, g3⟩ := result_windows (v := _) h1 h3
    rw [List.flatMap_cons, List.flatMap_nil, List.append_nil]
    refine ⟨⟨fun p hp => ?_, g2⟩, by rw [g3, h4], fun t ht s hs => ?_⟩
    · have := g1 p hp
      exact ⟨this.1, by omega⟩
    · rw [List.mem_singleton.mp ht] at hs
      exact text _ _ _ _ _ _ s hs
  | more h1 h2 h3 h4 h5 _ ih =>
    have := strip_whole h1 hc
    subst this
    obtain ⟨⟨i1, i2⟩, i3, i4⟩ := ih (by rw [elems_drop]; exact fun h => hc (strip_over_back h1 h))
    obtain ⟨g1, g2, g3⟩ := result_windows (v := _) h1 h3
    rw [List.flatMap_cons]
    refine ⟨⟨fun p hp => ?_, List.pairwise_append.mpr ⟨g2, i2, fun p hp q hq => ?_⟩⟩, ?_, fun t ht s hs => ?_⟩
    · rcases List.mem_append.mp hp with hp | hp
      · have := g1 p hp
        exact ⟨this.1, by omega⟩
      · have := i1 p hp
        unfold Within at this ⊢
        dsimp only at this
        omega
    · have a1 := g1 p hp
      have a2 := i1 q hq
      unfold Within at a2
      dsimp only at a2
      omega
    · rw [List.map_append, List.sum_append, g3, i3]
      dsimp only
      omega
    · rcases List.mem_cons.mp ht with rfl | ht
      · exact text _ _ _ _ _ _ s hs
      · exact i4 t ht s hs

/-- **C111** (partial: changes in place, for append see `C111_append_fails`; and the text does not end within a control
sequence, in a parameter of three digits, see C37). The slices found by StripToken are windows of the argument, whatever
its capacity: none is copied. Changing the runes of one does not change the others, nor what lies outside of the
argument. -/
theorem C111_in_place_partial (env : Env) (hd : AsciiDigits env) (mem : List Rune) (v : View) (h : IsSlice mem v)
    (hc : ¬ EndsLong env (v.elems mem)) :
    ∃ toks, stripToken env mem v = .ok (toks, mem) ∧ (∀ t ∈ toks, ∀ s, t.text = some s → ∃ p, s = .view p) ∧
      (toks.flatMap tokWindows).flatMap (View.elems mem) = v.elems mem ∧ Independent mem v (toks.flatMap tokWindows) := by
  have ho : ¬ Overruns env (v.elems mem) := fun h => hc (cut_of_overruns h)
  rcases stripToken_spec env hd mem v h.1 h.2 with ⟨_, _, h1⟩ | ⟨toks, h1, h2⟩
  · exact absurd h1 ho
  · obtain ⟨g1, g2, g3⟩ := run_windows h1 ho
    refine ⟨toks, h2, g3, ?_, inOrder_independent g1⟩
    rw [← run_whole h1 h.1 ho, List.flatMap_assoc]
    rw [List.flatMap_def, List.flatMap_def]
    refine congrArg List.flatten (List.map_congr_left fun t ht => ?_)
    have e1 : ∀ o : Option View, o.toList.flatMap (View.elems mem) = optElems mem o := by
      intro o; cases o <;> simp [optElems]
    unfold tokWindows tokRunes
    rw [List.flatMap_append, List.flatMap_append, e1, e1]
    congr 2
    cases hx : t.text with
    | none => rfl
    | some s =>
      obtain ⟨p, rfl⟩ := g3 t ht s hx
      simp [textElems, Sl.elems]

/-- **C111 fails** for append, whatever the text: appending one rune to a slice overwrites the first rune of the next one
(the escape of the stop sequence behind a text, for instance), in the argument as well. -/
theorem C111_append_fails (env : Env) (hd : AsciiDigits env) (mem : List Rune) (v : View) (h : IsSlice mem v)
    (hc : ¬ EndsLong env (v.elems mem)) (r : Rune) :
    ∃ toks, stripToken env mem v = .ok (toks, mem) ∧
      ∀ a p q b, toks.flatMap tokWindows = a ++ p :: q :: b → q.elems mem ≠ [] →
        q.elems (appendRunes mem p [r]).2 = r :: (q.elems mem).tail := by
  have ho : ¬ Overruns env (v.elems mem) := fun h => hc (cut_of_overruns h)
  rcases stripToken_spec env hd mem v h.1 h.2 with ⟨_, _, h1⟩ | ⟨toks, h1, h2⟩
  · exact absurd h1 ho
  · obtain ⟨g1, g2, g3⟩ := run_windows h1 ho
    refine ⟨toks, h2, fun a p q b he hne => ?_⟩
    rw [he] at g1 g2
    have hgap := no_gap g1 g2
    have hw := g1.1 q (by simp)
    have hv := h.1
    have hlen : 0 < q.len := by
      rcases Nat.eq_zero_or_pos q.len with h0 | h0
      · exact absurd (by simp [View.elems, h0]) hne
      · exact h0
    refine append_reaches ?_ hlen (by omega) [] r (by simp; omega)
    unfold Within at hw
    unfold View.Valid at hv ⊢
    omega

/-- A word in bold with text around it, in a larger array. -/
def boldInside : List Rune := runesOf "[a \x1b[1mbc\x1b[0m d]"

/-- Its slices: "a ", then the start sequence, "bc" and the stop sequence, then " d". -/
theorem boldInside_windows : (stripToken Env.ascii boldInside ⟨1, 14⟩).map (fun r => r.1.flatMap tokWindows) =
      .ok [⟨1, 2⟩, ⟨3, 4⟩, ⟨7, 2⟩, ⟨9, 4⟩, ⟨13, 2⟩] ∧ IsSlice boldInside ⟨1, 14⟩ := by
  decide +kernel

/-- The text meets the conditions of the theorems. -/
theorem boldInside_ends : ¬ EndsLong Env.ascii (View.elems boldInside ⟨1, 14⟩) := by
  have e : View.elems boldInside ⟨1, 14⟩ = View.elems (runesOf "a \x1b[1mbc\x1b[0m d") ⟨0, 14⟩ := by decide +kernel
  have ok : (stripToken Env.ascii (runesOf "a \x1b[1mbc\x1b[0m d") ⟨0, 14⟩).isOk = true := by decide +kernel
  cases h : stripToken Env.ascii (runesOf "a \x1b[1mbc\x1b[0m d") ⟨0, 14⟩ with
  | error p => rw [h] at ok; cases ok
  | ok r =>
    rw [e]
    rcases (C43_no_panic_partial Env.ascii ascii_digits (runesOf "a \x1b[1mbc\x1b[0m d") ⟨0, 14⟩ (by decide +kernel)).1.mp
      ⟨r, h⟩ with h | h
    · exact absurd h (by decide +kernel)
    · exact h

/-- A hyphen appended to "bc" overwrites the escape of the stop sequence: the rest of the line is shown in bold. -/
example : (appendRunes boldInside ⟨7, 2⟩ [0x2D]).2 = runesOf "[a \x1b[1mbc-[0m d]" := by decide +kernel

end Verif.Props
