import Verif.Proofs.StripComments
import Verif.Props.Hyphenation

/-! # Property C90: the program that takes the comments out of pattern files -/

namespace Verif.Props
open Verif.Go Verif.Model Verif.Spec Verif.Proofs

theorem commentFree_map (ls : List (List Rune)) :
    ∃ ts, CommentFreeLines ls ts ∧ (∀ t ∈ ts, ∃ l ∈ ls, CommentFree l t) ∧
      ((∀ l ∈ ls, ∀ r ∈ l, IsScalar r) → ls.flatMap stripped = ts.flatMap (fun t => utf8s t ++ [0x0A])) := by
  induction ls with
  | nil => exact ⟨[], .nil, by simp, by simp⟩
  | cons l ls ih =>
    obtain ⟨ts, h1, h2, h3⟩ := ih
    by_cases hw : WholeComment l
    · refine ⟨ts, .comment hw h1, fun t ht => ?_, fun hs => ?_⟩
      · obtain ⟨x, hx, hc⟩ := h2 t ht
        exact ⟨x, by simp [hx], hc⟩
      · rw [List.flatMap_cons, h3 fun x hx => hs x (by simp [hx])]
        simp [stripped, (isTeXCommentLine_iff l).mpr hw]
    · have hc := stripLine_spec l hw
      refine ⟨_ :: ts, .text hw hc h1, fun t ht => ?_, fun hs => ?_⟩
      · rcases List.mem_cons.mp ht with rfl | ht
        · exact ⟨l, by simp, hc⟩
        · obtain ⟨x, hx, hcx⟩ := h2 t ht
          exact ⟨x, by simp [hx], hcx⟩
      · rw [List.flatMap_cons, h3 fun x hx => hs x (by simp [hx]), List.flatMap_cons]
        have hn : isTeXCommentLine l = false := by
          cases h : isTeXCommentLine l with
          | false => rfl
          | true => exact absurd ((isTeXCommentLine_iff l).mp h) hw
        have he : (trimSpace (replaceComment l)).flatMap encodeRune = utf8s (trimSpace (replaceComment l)) := by
          unfold utf8s
          rw [List.flatMap_def, List.flatMap_def]
          congr 1
          refine List.map_congr_left fun r hr => encodeRune_scalar ?_
          exact hs l (by simp) r ((commentFree_sublist hc).subset hr)
        simp [stripped, hn, he]

/-- **C90.** The file written by strip has, one per line, the lines of the original which are not comments as a whole,
without the comments at their ends and without white space around; and LoadPatterns reads these lines from it. -/
theorem C90_lines (env : Env) (id : List Rune) (data : List Nat) (ls : List (List Rune))
    (hs : ∀ l ∈ ls, ∀ r ∈ l, IsScalar r) (hf : FileOf data (ls.map utf8s))
    (hlen : ∀ l ∈ ls, (utf8s l).length ≤ 65534) :
    ∃ ts, CommentFreeLines ls ts ∧ stripFile data = ts.flatMap (fun t => utf8s t ++ [0x0A]) ∧
      ∃ dict, loadFile env id (stripFile data) = .ok dict ∧
        (∀ k, dict.patterns.get k = lastDef (patternEntries env ts) k) ∧
        (∀ k, dict.exceptions.get k = lastDef (exceptionEntries env ts) k) := by
  obtain ⟨ts, h1, h2, h3⟩ := commentFree_map ls
  have hdec : ∀ xs : List (List Rune), (∀ l ∈ xs, ∀ r ∈ l, IsScalar r) → (xs.map utf8s).map stringRunes = xs := by
    intro xs hx
    rw [List.map_map]
    refine (List.map_congr_left (g := fun l => l) fun l hl => ?_).trans (List.map_id' _)
    exact stringRunes_utf8s l (hx l hl)
  have hts : ∀ t ∈ ts, ∀ r ∈ t, IsScalar r := by
    intro t ht r hr
    obtain ⟨l, hl, hc⟩ := h2 t ht
    exact hs l hl r ((commentFree_sublist hc).subset hr)
  have e : stripFile data = ts.flatMap (fun t => utf8s t ++ [0x0A]) := by
    rw [stripFile_lines data _ hf (by simpa using hlen), hdec ls hs, h3 hs]
  have hout : FileOf (stripFile data) (ts.map utf8s) := by
    rw [e, show ts.flatMap (fun t => utf8s t ++ [0x0A]) = (ts.map utf8s).flatMap (fun t => t ++ [0x0A]) by
      simp [List.flatMap_map]]
    refine fileOf_lines _ fun x hx => ?_
    obtain ⟨t, ht, rfl⟩ := List.mem_map.mp hx
    obtain ⟨l, hl, hc⟩ := h2 t ht
    constructor
    · refine utf8s_lf (hts t ht) fun hm => ?_
      refine fileOf_no_lf hf (utf8s l) (List.mem_map.mpr ⟨l, hl, rfl⟩) ?_
      exact List.mem_flatMap.mpr ⟨0x0A, (commentFree_sublist hc).subset hm, by decide⟩
    · obtain ⟨_, _, _, _, _, _, hlast⟩ := hc
      exact utf8s_last (hts t ht) hlast
  refine ⟨ts, h1, e, ?_⟩
  rw [loadFile_lines env id _ _ hout ?_, hdec ts hts]
  · exact loadPatterns_spec env id ts
  · intro x hx
    obtain ⟨t, ht, rfl⟩ := List.mem_map.mp hx
    obtain ⟨l, hl, hc⟩ := h2 t ht
    have := utf8s_length_le (commentFree_sublist hc)
    have := hlen l hl
    omega

/-- The line has no `%`, and no white space at its ends. -/
def Tidy (l : List Rune) : Prop :=
  0x25 ∉ l ∧ (∀ r, l.head? = some r → isSpace r = false) ∧ (∀ r, l.getLast? = some r → isSpace r = false)

theorem tidy_same {l t : List Rune} (h : Tidy l) (hc : CommentFree l t) : t = l := by
  obtain ⟨h1, h2, h3⟩ := h
  obtain ⟨a, b, c1, c2, c3, _, _⟩ := hc
  rw [takeWhile_all (by intro r hr; simp only [decide_eq_true_eq]; intro e; subst e; exact h1 hr)] at c1
  have ha : a = [] := by
    cases a with
    | nil => rfl
    | cons x a =>
      have := h2 x (by rw [c1]; rfl)
      rw [c2 x (by simp)] at this
      cases this
  have hb : b = [] := by
    rcases List.eq_nil_or_concat b with hb | ⟨b', x, hb⟩
    · exact hb
    · rw [List.concat_eq_append] at hb
      subst hb
      have := h3 x (by rw [c1]; simp)
      rw [c3 x (by simp)] at this
      cases this
  subst ha hb
  simpa using c1.symm

theorem whole_comment {l : List Rune} (h : WholeComment l) : isComment l = true ∧ isMarker l = false := by
  rcases h with rfl | h
  · exact ⟨rfl, by decide⟩
  · cases l with
    | nil => simp at h
    | cons c l =>
      simp only [List.head?_cons, Option.some.injEq] at h
      subst h
      refine ⟨rfl, ?_⟩
      have : runesOf "\\hyphenation{" = 0x5C :: runesOf "hyphenation{" := by decide
      unfold isMarker
      rw [this]
      rfl

theorem entries_same (env : Env) {ls ts : List (List Rune)} (h : CommentFreeLines ls ts)
    (ht : ∀ l ∈ ls, ¬ WholeComment l → Tidy l) :
    patternEntries env ts = patternEntries env ls ∧
    (exceptionEntries env ts).filter (fun e => decide (e.1 ≠ [])) =
      (exceptionEntries env ls).filter (fun e => decide (e.1 ≠ [])) ∧
    (ts.map (exceptionEntry env)).filter (fun e => decide (e.1 ≠ [])) =
      (ls.map (exceptionEntry env)).filter (fun e => decide (e.1 ≠ [])) := by
  induction h with
  | nil => exact ⟨rfl, rfl, rfl⟩
  | @comment l ls ts hw _ ih =>
    obtain ⟨i1, i2, i3⟩ := ih fun x hx => ht x (by simp [hx])
    obtain ⟨g1, g2⟩ := whole_comment hw
    refine ⟨?_, ?_, ?_⟩
    · rw [i1]; simp [patternEntries, g1, g2]
    · rw [i2]; simp [exceptionEntries, g2]
    · rw [i3]; simp [exceptionEntry, g1]
  | @text l t ls ts hw hc _ ih =>
    obtain ⟨i1, i2, i3⟩ := ih fun x hx => ht x (by simp [hx])
    have e := tidy_same (ht l (by simp) hw) hc
    subst e
    cases hm : isMarker t with
    | true =>
      refine ⟨by simp [patternEntries, hm], ?_, ?_⟩
      · simpa [exceptionEntries, hm] using i3
      · simp only [List.map_cons, List.filter_cons, i3]
    | false =>
      refine ⟨?_, ?_, ?_⟩
      · unfold patternEntries at i1 ⊢
        rw [List.takeWhile_cons_of_pos (by simp [hm]), List.takeWhile_cons_of_pos (by simp [hm]), List.filter_cons,
          List.filter_cons]
        split
        · rw [List.flatMap_cons, List.flatMap_cons, List.map_append, List.map_append, i1]
        · exact i1
      · simpa [exceptionEntries, hm] using i2
      · simp only [List.map_cons, List.filter_cons, i3]

theorem lastDef_filter (es : List (List Rune × List Int)) (k : List Rune) (hk : k ≠ []) :
    lastDef (es.filter (fun e => decide (e.1 ≠ []))) k = lastDef es k := by
  unfold lastDef
  rw [← List.filter_reverse, List.find?_filter]
  congr 1
  congr 1
  funext e
  by_cases h : e.1 = k
  · simp [h, hk]
  · simp [h]

/-- **C90.** For a file where comments are lines of their own and other lines have no white space around them, taking
out the comments does not change the dictionary. -/
theorem C90_same_dictionary (env : Env) (id : List Rune) (data : List Nat) (ls : List (List Rune))
    (hs : ∀ l ∈ ls, ∀ r ∈ l, IsScalar r) (hf : FileOf data (ls.map utf8s))
    (hlen : ∀ l ∈ ls, (utf8s l).length ≤ 65534) (ht : ∀ l ∈ ls, ¬ WholeComment l → Tidy l) :
    ∃ d1 d2, loadFile env id data = .ok d1 ∧ loadFile env id (stripFile data) = .ok d2 ∧
      (∀ k, d2.patterns.get k = d1.patterns.get k) ∧ (∀ k, k ≠ [] → d2.exceptions.get k = d1.exceptions.get k) := by
  obtain ⟨ts, h1, _, d2, h2, h3, h4⟩ := C90_lines env id data ls hs hf hlen
  have hdec : (ls.map utf8s).map stringRunes = ls := by
    rw [List.map_map]
    refine (List.map_congr_left (g := fun l => l) fun l hl => ?_).trans (List.map_id' _)
    exact stringRunes_utf8s l (hs l hl)
  obtain ⟨d1, g1, g2, g3⟩ := loadPatterns_spec env id ls
  obtain ⟨e1, e2, _⟩ := entries_same env h1 ht
  refine ⟨d1, d2, ?_, h2, fun k => ?_, fun k hk => ?_⟩
  · rw [loadFile_lines env id data _ hf (by simpa using hlen), hdec, g1]
  · rw [h3, g2, e1]
  · rw [h4, g3, ← lastDef_filter _ k hk, e2, lastDef_filter _ k hk]

/-- A file "% x", "a1b % y", " c1d" (with LF, CRLF, and nothing at the end), and what strip makes of it. -/
def commentedFile : List Nat := [0x25, 0x20, 0x78, 0x0A, 0x61, 0x31, 0x62, 0x20, 0x25, 0x20, 0x79, 0x0D, 0x0A, 0x20, 0x63,
  0x31, 0x64]

example : FileOf commentedFile ([runesOf "% x", runesOf "a1b % y", runesOf " c1d"].map utf8s) :=
  FileOf.lf [0x25, 0x20, 0x78] (by decide) (by decide)
    (FileOf.crlf [0x61, 0x31, 0x62, 0x20, 0x25, 0x20, 0x79] (by decide)
      (FileOf.open_ _ (by decide) (by decide) (by decide)))

example : stripFile commentedFile = [0x61, 0x31, 0x62, 0x0A, 0x63, 0x31, 0x64, 0x0A] := by decide +kernel

example : Tidy (runesOf "a1b c1d") ∧ ¬ WholeComment (runesOf "a1b c1d") ∧ WholeComment (runesOf "% x") := by
  refine ⟨⟨by decide, by decide, by decide⟩, ?_, ?_⟩ <;> (unfold WholeComment; decide)

end Verif.Props
