import Verif.Proofs.Windows
import Verif.Props.Words

/-! # Property C89: parts that share the memory of the text

The argument of a call is a window `v` of an array `mem`, which ends where the capacity of the argument ends. -/

namespace Verif.Props
open Verif.Go Verif.Model Verif.Model.Ansi Verif.Spec Verif.Proofs

/-- A change made in one of the windows of `ps`, a list of windows of `v`, is not seen in the others, nor outside
`v`. -/
def Independent (mem : List Rune) (v : View) (ps : List View) : Prop :=
  ∀ (i : Nat) (p : View), ps[i]? = some p → ∀ mem', SameOutside p mem mem' →
    (∀ (j : Nat) (q : View), ps[j]? = some q → j ≠ i → q.elems mem' = q.elems mem) ∧ SameOutside v mem mem'

theorem inOrder_independent {mem : List Rune} {v : View} {ps : List View} (h : InOrder v ps) :
    Independent mem v ps := by
  intro i p hi mem' hs
  refine ⟨fun j q hj hij => elems_sameOutside hs ?_, hs.1, fun k hk => hs.2 k ?_⟩
  · exact inOrder_disjoint h hi hj (Ne.symm hij)
  · have := h.1 p (List.mem_of_getElem? hi)
    unfold Within at this
    omega

/-- **C89** (partial: changes in place; for append see `C89_append_field_fails`). FieldsFunc: whatever the capacity
of the argument, the parts have the runes of C01–C03, and changing the runes of one does not change the others. -/
theorem C89_fields_partial (f : Rune → Bool) (mem : List Rune) (v : View) (hv : v.Valid mem) :
    ∃ ps, fieldsFuncW mem v f = .ok ps ∧ fieldsFunc (v.elems mem) f = .ok (ps.map (View.elems mem)) ∧
      Independent mem v ps := by
  obtain ⟨ps, h1, h2, h3⟩ := fieldsFuncW_spec f mem v hv
  exact ⟨ps, h1, h2, inOrder_independent h3⟩

/-- **C89** (partial, as before). The tokenizer. -/
theorem C89_tokenizer_partial (mem : List Rune) (v : View) (hv : v.Valid mem) :
    ∃ ps, tokenizerBreakWordW mem v = .ok ps ∧
      tokenizerBreakWord (v.elems mem) = .ok (ps.map (View.elems mem)) ∧ Independent mem v ps :=
  C89_fields_partial isSpace mem v hv

/-- **C89** (partial, as before). The punctuator: marks are new slices and the other parts windows, so that a change in
a part is not seen in the others. -/
theorem C89_punctuator_partial (env : Env) (mem : List Rune) (v : View) (hv : v.Valid mem) :
    ∃ ss, punctuatorBreakWordW env mem v = .ok ss ∧
      punctuatorBreakWord env (v.elems mem) = .ok (ss.map (Sl.elems mem)) ∧
      Independent mem v (windowsOf ss) ∧
      ∀ s ∈ ss, isPunctuation env (s.elems mem) = true → ∃ l, s = .fresh l := by
  obtain ⟨ss, h1, h2, h3⟩ := breakAtFuncW_spec (punctSplitFunc env) mem v hv
  refine ⟨ss, h1, h2, inOrder_independent h3, ?_⟩
  intro s hs hp
  have hk := breakAtFuncW_kind _ mem v hv ss h1 s hs
  cases s with
  | fresh l => exact ⟨l, rfl⟩
  | view p =>
    obtain ⟨r, hr, hm⟩ := (C06_isPunctuation_iff env _).mp hp
    simp only [Sl.elems] at hr
    have := hk r (by rw [hr]; simp)
    rw [(punctSplitFunc_iff env r).mpr hm] at this
    cases this

/-- **C89** (partial, as before). SplitWord. -/
theorem C89_splitWord_partial (mem : List Rune) (v : View) (hv : v.Valid mem) :
    ∃ ss, splitWordW mem v = .ok ss ∧ splitWord (v.elems mem) = .ok (ss.map (Sl.elems mem)) ∧
      Independent mem v (windowsOf ss) ∧ ∀ s ∈ ss, isHyphen (s.elems mem) = true → ∃ l, s = .fresh l := by
  obtain ⟨ss, h1, h2, h3⟩ := breakAtFuncW_spec isHyphenRune mem v hv
  refine ⟨ss, h1, h2, inOrder_independent h3, ?_⟩
  intro s hs hp
  have hk := breakAtFuncW_kind _ mem v hv ss h1 s hs
  obtain ⟨parts, g1, _, _, _, g5⟩ := C07_splitWord (v.elems mem)
  have e : parts = ss.map (Sl.elems mem) := by
    have g2 : splitWord (v.elems mem) = .ok (ss.map (Sl.elems mem)) := h2
    rw [g1] at g2
    exact Except.ok.inj g2
  cases s with
  | fresh l => exact ⟨l, rfl⟩
  | view p =>
    obtain ⟨r, hr, hm⟩ := (g5 _ (by rw [e]; exact List.mem_map.mpr ⟨_, hs, rfl⟩)).mp hp
    simp only [Sl.elems] at hr
    have := hk r (by rw [hr]; simp)
    rw [hm] at this
    cases this

/-- **C89** (partial, as before; and minRight is not negative, see C09). BreakWord of the hyphenator. -/
theorem C89_hyphenator_partial (env : Env) (dict : Dictionary) (o : HOptions) (hr : 0 ≤ o.minRight)
    (mem : List Rune) (v : View) (hv : v.Valid mem) :
    ∃ ps, hyphenatorBreakWordW env dict o mem v = .ok ps ∧
      hyphenatorBreakWord env dict o (v.elems mem) = .ok (ps.map (View.elems mem)) ∧ Independent mem v ps := by
  obtain ⟨ps, h1, h2, h3⟩ := hyphenatorBreakWordW_spec env dict o hr mem v hv
  exact ⟨ps, h1, h2, inOrder_independent h3⟩

/-- The array "see co-operate|XY" with a slice that ends before "XY". -/
def shared : List Rune := runesOf "see co-operate|XY"

example : View.Valid shared ⟨4, 11⟩ := by unfold View.Valid; decide
example : fieldsFuncW shared ⟨0, 14⟩ isSpace = .ok [⟨0, 3⟩, ⟨4, 10⟩] := by decide
example : punctuatorBreakWordW Env.ascii shared ⟨4, 11⟩ = .ok [.view ⟨4, 10⟩, .fresh [0x7C]] := by decide
example : splitWordW shared ⟨4, 10⟩ = .ok [.view ⟨4, 2⟩, .fresh [0x2D], .view ⟨7, 7⟩] := by decide
example : SameOutside ⟨4, 2⟩ shared (runesOf "see CO-operate|XY") := by
  refine ⟨by decide, fun i hi => ?_⟩
  by_cases h : i < 17
  · have : ∀ k : Fin 17, k.1 < 4 ∨ 4 + 2 ≤ k.1 → (runesOf "see CO-operate|XY")[k.1]? = shared[k.1]? := by decide
    exact this ⟨i, h⟩ hi
  · rw [List.getElem?_eq_none (by simp [runesOf]; omega), List.getElem?_eq_none (by simp [runesOf, shared]; omega)]

/-- What `append` returns has the runes of the slice and the new ones, whatever the capacity. -/
theorem append_elems (mem : List Rune) (v : View) (hv : v.Valid mem) (rs : List Rune) :
    (appendRunes mem v rs).1.elems (appendRunes mem v rs).2 = v.elems mem ++ rs := by
  unfold View.Valid at hv
  unfold appendRunes
  split
  · have e : mem.take (v.off + v.len) = mem.take v.off ++ v.elems mem := by rw [List.take_add]; rfl
    have h1 : (mem.take v.off).length = v.off := by simp; omega
    have h2 : (v.elems mem ++ rs).length = v.len + rs.length := by simp [View.elems]; omega
    show ((mem.take (v.off + v.len) ++ rs ++ _).drop v.off).take (v.len + rs.length) = _
    rw [e, List.append_assoc (mem.take v.off), List.append_assoc (mem.take v.off), List.drop_left' h1, List.take_left' h2]
  · rfl

/-- **C89 fails** for append, whatever the hyphenator and the word, when the word is cut: appending one rune (as `-`)
to a part overwrites the first rune of the next part, if that is not empty. -/
theorem C89_append_hyphen_fails (env : Env) (dict : Dictionary) (o : HOptions) (hr : 0 ≤ o.minRight)
    (mem : List Rune) (v : View) (hv : v.Valid mem) (r : Rune) :
    ∃ ps, hyphenatorBreakWordW env dict o mem v = .ok ps ∧
      ∀ a p q b, ps = a ++ p :: q :: b → q.elems mem ≠ [] →
        q.elems (appendRunes mem p [r]).2 = r :: (q.elems mem).tail := by
  obtain ⟨ps, h1, h2, h3⟩ := hyphenatorBreakWordW_spec env dict o hr mem v hv
  refine ⟨ps, h1, fun a p q b he hne => ?_⟩
  obtain ⟨parts, g1, _, g3⟩ := C09_hyphenator_partition env dict o hr (v.elems mem)
  rw [h2] at g1
  have hval : ∀ w ∈ ps, w.Valid mem := by
    intro w hw
    have := h3.1 w hw
    unfold Within at this
    unfold View.Valid at hv ⊢
    omega
  have hsum : (ps.map View.len).sum = v.len := by
    have e := congrArg List.length g3
    rw [← Except.ok.inj g1, List.length_flatten, List.map_map, View.elems_length hv] at e
    rw [← e]
    congr 1
    refine List.map_congr_left fun w hw => ?_
    simp [View.elems_length (hval w hw)]
  subst he
  have hgap := no_gap h3 hsum
  have hq := hval q (by simp)
  have hlen : 0 < q.len := by
    rcases Nat.eq_zero_or_pos q.len with h0 | h0
    · exact absurd (by simp [View.elems, h0]) hne
    · exact h0
  exact append_reaches hq hlen (by omega) [] r (by simp; omega)

/-- **C89 fails** for append with FieldsFunc: the rune that is appended after as many as there are separators overwrites
the first rune of the next part; one rune is enough to overwrite the separator, in the slice of the caller. -/
theorem C89_append_field_fails (f : Rune → Bool) (mem : List Rune) (v : View) (hv : v.Valid mem) (r : Rune) :
    ∃ ps, fieldsFuncW mem v f = .ok ps ∧
      ∀ a p q b, ps = a ++ p :: q :: b → q.elems mem ≠ [] →
        ∀ rs : List Rune, rs.length = q.off - (p.off + p.len) →
          q.elems (appendRunes mem p (rs ++ [r])).2 = r :: (q.elems mem).tail := by
  obtain ⟨ps, h1, h2, h3⟩ := fieldsFuncW_spec f mem v hv
  refine ⟨ps, h1, fun a p q b he hne rs hrs => ?_⟩
  subst he
  have hw := h3.1 q (by simp)
  have hlen : 0 < q.len := by
    rcases Nat.eq_zero_or_pos q.len with h0 | h0
    · exact absurd (by simp [View.elems, h0]) hne
    · exact h0
  have ho := (List.pairwise_append.mp h3.2).2.1
  refine append_reaches ?_ hlen ((List.pairwise_cons.mp ho).1 q (by simp)) rs r hrs
  unfold Within at hw
  unfold View.Valid at hv ⊢
  omega

/-- The word "aabbcc", followed by "XY" in the array: with the patterns "a1b" and "b1c" it has three parts, and a hyphen
appended to the first one overwrites a letter of the second one. -/
example : hyphenatorBreakWordW Env.ascii
    ⟨.empty, ((Trie.empty.put (runesOf "ab") (some [0, 1])).1.put (runesOf "bc") (some [0, 1])).1, []⟩ ⟨4, 2, 2⟩
    (runesOf "aabbccXY") ⟨0, 6⟩ = .ok [⟨0, 2⟩, ⟨2, 2⟩, ⟨4, 2⟩] := by decide
example : (appendRunes (runesOf "aabbccXY") ⟨0, 2⟩ [0x2D]).2 = runesOf "aa-bccXY" := by decide

end Verif.Props
