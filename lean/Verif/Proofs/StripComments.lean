import Verif.Model.StripComments
import Verif.Spec.Comments
import Verif.Proofs.Scanner
import Verif.Proofs.Utf8

/-! # Lemmas on strip_comments.go -/

namespace Verif.Proofs
open Verif.Go Verif.Model Verif.Spec

theorem reSpace_space {r : Rune} (h : reSpace r = true) : isSpace r = true ∧ r ≠ 0x25 := by
  simp only [reSpace, Bool.or_eq_true, beq_iff_eq] at h
  rcases h with (((rfl | rfl) | rfl) | rfl) | rfl <;> exact ⟨by decide, by decide⟩

theorem mem_takeWhile_pred {p : Rune → Bool} {r : Rune} : ∀ {l : List Rune}, r ∈ l.takeWhile p → p r = true
  | [], h => by simp at h
  | c :: l, h => by
    by_cases hc : p c = true
    · rw [List.takeWhile_cons_of_pos hc] at h
      rcases List.mem_cons.mp h with rfl | h
      · exact hc
      · exact mem_takeWhile_pred h
    · rw [List.takeWhile_cons_of_neg hc] at h
      simp at h

theorem takeWhile_all {p : Rune → Bool} : ∀ {l : List Rune}, (∀ r ∈ l, p r = true) → l.takeWhile p = l
  | [], _ => rfl
  | c :: l, h => by
    rw [List.takeWhile_cons_of_pos (h c (by simp)), takeWhile_all fun r hr => h r (by simp [hr])]

theorem matchesComment_spec (l : List Rune) (h : matchesComment l = true) :
    (∀ r ∈ l.takeWhile (· ≠ 0x25), isSpace r = true) ∧ 0x25 ∈ l := by
  induction l with
  | nil => simp [matchesComment] at h
  | cons c l ih =>
    unfold matchesComment at h ih
    by_cases hc : reSpace c = true
    · rw [List.dropWhile_cons_of_pos hc] at h
      obtain ⟨h1, h2⟩ := ih h
      obtain ⟨h3, h4⟩ := reSpace_space hc
      refine ⟨?_, by simp [h2]⟩
      rw [List.takeWhile_cons_of_pos (by simpa using h4)]
      intro r hr
      rcases List.mem_cons.mp hr with rfl | hr
      · exact h3
      · exact h1 r hr
    · rw [List.dropWhile_cons_of_neg hc] at h
      have : c = 0x25 := by simpa using h
      subst this
      simp

theorem commentGroup_spec : ∀ (l cur : List Rune), l ≠ [] → l.head? ≠ some 0x25 →
    (0x25 ∉ l ∧ commentGroup cur l = none) ∨
    ∃ g b, commentGroup cur l = some g ∧ cur ++ l.takeWhile (· ≠ 0x25) = g ++ b ∧ ∀ r ∈ b, isSpace r = true := by
  intro l
  induction l with
  | nil => intro _ h; exact absurd rfl h
  | cons c rest ih =>
    intro cur _ hc
    have hc' : c ≠ 0x25 := by simpa using hc
    have htw : (c :: rest).takeWhile (· ≠ 0x25) = c :: rest.takeWhile (· ≠ 0x25) :=
      List.takeWhile_cons_of_pos (by simpa using hc')
    simp only [commentGroup]
    cases hm : matchesComment rest with
    | true =>
      refine Or.inr ⟨cur ++ [c], rest.takeWhile (· ≠ 0x25), by simp, by rw [htw]; simp, (matchesComment_spec rest hm).1⟩
    | false =>
      simp only [Bool.false_eq_true, if_false]
      by_cases hr : rest = []
      · subst hr
        exact Or.inl ⟨by simpa using Ne.symm hc', rfl⟩
      · have hh : rest.head? ≠ some 0x25 := by
          intro e
          obtain ⟨d, rest', rfl⟩ := List.exists_cons_of_ne_nil hr
          simp only [List.head?_cons, Option.some.injEq] at e
          subst e
          simp [matchesComment, reSpace] at hm
        rcases ih (cur ++ [c]) hr hh with ⟨h1, h2⟩ | ⟨g, b, h1, h2, h3⟩
        · exact Or.inl ⟨by simp [h1, Ne.symm hc'], h2⟩
        · exact Or.inr ⟨g, b, h1, by rw [htw, ← h2]; simp, h3⟩

theorem trimSpace_spec (l : List Rune) : ∃ a b, l = a ++ trimSpace l ++ b ∧ (∀ r ∈ a, isSpace r = true) ∧
    (∀ r ∈ b, isSpace r = true) ∧ (∀ r, (trimSpace l).head? = some r → isSpace r = false) ∧
    (∀ r, (trimSpace l).getLast? = some r → isSpace r = false) := by
  let m := l.dropWhile isSpace
  have h1 : l = l.takeWhile isSpace ++ m := List.takeWhile_append_dropWhile.symm
  have h2 : m.reverse = m.reverse.takeWhile isSpace ++ m.reverse.dropWhile isSpace :=
    List.takeWhile_append_dropWhile.symm
  have h3 : m = trimSpace l ++ (m.reverse.takeWhile isSpace).reverse := by
    have := congrArg List.reverse h2
    rw [List.reverse_reverse, List.reverse_append] at this
    exact this
  refine ⟨l.takeWhile isSpace, (m.reverse.takeWhile isSpace).reverse, ?_, ?_, ?_, ?_, ?_⟩
  · rw [List.append_assoc, ← h3]; exact h1
  · intro r hr; exact mem_takeWhile_pred hr
  · intro r hr
    exact mem_takeWhile_pred (List.mem_reverse.mp hr)
  · intro r hr
    have hm : m.head? = some r := by
      rw [h3, List.head?_append, hr]; rfl
    have := List.head?_dropWhile_not isSpace l
    rw [show l.dropWhile isSpace = m from rfl, hm] at this
    simpa using this
  · intro r hr
    have := List.head?_dropWhile_not isSpace m.reverse
    rw [List.getLast?_eq_head?_reverse] at hr
    rw [show (trimSpace l).reverse = m.reverse.dropWhile isSpace by simp [trimSpace, m]] at hr
    rw [hr] at this
    simpa using this

/-- A line loses its comment and the white space at its ends. -/
theorem stripLine_spec (l : List Rune) (h : ¬ WholeComment l) : CommentFree l (trimSpace (replaceComment l)) := by
  unfold WholeComment at h
  rw [not_or] at h
  obtain ⟨a, b, h1, h2, h3, h4, h5⟩ := trimSpace_spec (replaceComment l)
  rcases commentGroup_spec l [] h.1 h.2 with ⟨g1, g2⟩ | ⟨g, c, g1, g2, g3⟩
  · have e : replaceComment l = l := by simp [replaceComment, g2]
    have et : l.takeWhile (· ≠ 0x25) = l := by
      refine takeWhile_all fun r hr => ?_
      simp only [decide_eq_true_eq]
      intro e; subst e; exact g1 hr
    refine ⟨a, b, ?_, h2, h3, h4, h5⟩
    rw [et, ← h1, e]
  · have e : replaceComment l = g := by simp [replaceComment, g1]
    refine ⟨a, b ++ c, ?_, h2, ?_, h4, h5⟩
    · rw [List.nil_append] at g2
      rw [g2, ← e]
      rw [← List.append_assoc, ← h1]
    · intro r hr
      rcases List.mem_append.mp hr with hr | hr
      · exact h3 r hr
      · exact g3 r hr

theorem isTeXCommentLine_iff (l : List Rune) : isTeXCommentLine l = true ↔ WholeComment l := by
  cases l with
  | nil => simp [isTeXCommentLine, WholeComment]
  | cons c l =>
    simp only [isTeXCommentLine, WholeComment, hasPrefix, List.isPrefixOf, List.length_cons, Bool.and_true,
      List.head?_cons, Option.some.injEq, Bool.or_eq_true, beq_iff_eq, reduceCtorEq, false_or]
    exact eq_comm

/-- The bytes written for a line. -/
def stripped (l : List Rune) : List Nat :=
  if isTeXCommentLine l then [] else (trimSpace (replaceComment l)).flatMap encodeRune ++ [0x0A]

theorem stripLoop_spec : ∀ (fuel : Nat) (s : Scanner) (ls : List (List Nat)) (out : List Nat), ScanInv s →
    FileOf (Scanner.content s) ls → FitsBuffer (Scanner.content s) → (Scanner.content s).length < fuel →
    stripLoop fuel s out = out ++ (ls.map stringRunes).flatMap stripped := by
  intro fuel
  induction fuel with
  | zero => intro s ls out _ _ _ h; omega
  | succ fuel ih =>
    intro s ls out hi hf hlen hfu
    have hs := scan_file hi hf hlen
    cases ls with
    | nil =>
      obtain ⟨s', h1, h2, h3⟩ := hs
      simp [stripLoop, h1]
    | cons l ls =>
      obtain ⟨s', h1, h2, h3, hlen', h4⟩ := hs
      simp only [stripLoop, h1]
      cases hc : isTeXCommentLine (stringRunes l) with
      | true =>
        simp only [if_true]
        rw [ih s' ls _ h2 h3 hlen' (by omega)]
        simp [stripped, hc]
      | false =>
        simp only [Bool.false_eq_true, if_false]
        rw [ih s' ls _ h2 h3 hlen' (by omega)]
        simp [stripped, hc]

theorem stripFile_lines (data : List Nat) (ls : List (List Nat)) (hf : FileOf data ls)
    (hlen : ∀ l ∈ ls, l.length ≤ 65534) : stripFile data = (ls.map stringRunes).flatMap stripped := by
  unfold stripFile
  have hc : Scanner.content (newScanner data) = data := by simp [Scanner.content, newScanner]
  rw [stripLoop_spec _ _ ls [] (newScanner_inv data) (by rw [hc]; exact hf)
    (by rw [hc]; exact fits_of_lines hf hlen) (by rw [hc]; omega)]
  simp

/-- A byte below 0x80 is a rune of its own. -/
theorem ascii_byte {r : Rune} (h : IsScalar r) {b : Nat} (hb : b < 0x80) (hm : b ∈ utf8 r) : r = b := by
  obtain ⟨h1, h2, h3⟩ := h
  unfold utf8 utf8Nat at hm
  split at hm
  · simp only [List.mem_singleton] at hm
    omega
  · split at hm
    · simp only [List.mem_cons, List.not_mem_nil, or_false] at hm
      omega
    · split at hm
      · simp only [List.mem_cons, List.not_mem_nil, or_false] at hm
        omega
      · simp only [List.mem_cons, List.not_mem_nil, or_false] at hm
        omega

theorem utf8s_lf {t : List Rune} (h : ∀ r ∈ t, IsScalar r) (hn : (0x0A : Rune) ∉ t) : 0x0A ∉ utf8s t := by
  intro hm
  obtain ⟨r, hr, hb⟩ := List.mem_flatMap.mp hm
  have := ascii_byte (h r hr) (by decide) hb
  exact hn (by rw [show (0x0A : Rune) = r from by omega]; exact hr)

theorem utf8s_last {t : List Rune} (h : ∀ r ∈ t, IsScalar r)
    (hn : ∀ r, t.getLast? = some r → isSpace r = false) : (utf8s t).getLast? ≠ some 0x0D := by
  intro hm
  rcases List.eq_nil_or_concat t with rfl | ⟨t', r, rfl⟩
  · simp [utf8s] at hm
  · rw [List.concat_eq_append] at *
    have hne : utf8 r ≠ [] := by
      have := utf8_length r
      intro e; rw [e] at this; simp at this
    have e : utf8s (t' ++ [r]) = utf8s t' ++ utf8 r := by simp [utf8s]
    rw [e, List.getLast?_append, List.getLast?_eq_some_getLast hne, Option.some_or] at hm
    have hb : (0x0D : Nat) ∈ utf8 r := by rw [← Option.some.inj hm]; exact List.getLast_mem hne
    have := ascii_byte (h r (by simp)) (by decide) hb
    have h2 := hn r (by simp)
    rw [this] at h2
    exact absurd h2 (by decide)

theorem fileOf_lines : ∀ (ts : List (List Nat)), (∀ t ∈ ts, 0x0A ∉ t ∧ t.getLast? ≠ some 0x0D) →
    FileOf (ts.flatMap (fun t => t ++ [0x0A])) ts
  | [], _ => .nil
  | t :: ts, h => by
    rw [List.flatMap_cons, List.append_assoc]
    exact FileOf.lf t (h t (by simp)).1 (h t (by simp)).2 (fileOf_lines ts fun x hx => h x (by simp [hx]))

theorem fileOf_no_lf {data : List Nat} {ls : List (List Nat)} (h : FileOf data ls) : ∀ l ∈ ls, 0x0A ∉ l := by
  induction h with
  | nil => simp
  | open_ l h => intro x hx; simp only [List.mem_singleton] at hx; subst hx; exact h
  | openCR l h => intro x hx; simp only [List.mem_singleton] at hx; subst hx; exact h
  | lf l h _ _ ih =>
    intro x hx
    rcases List.mem_cons.mp hx with rfl | hx
    · exact h
    · exact ih x hx
  | crlf l h _ ih =>
    intro x hx
    rcases List.mem_cons.mp hx with rfl | hx
    · exact h
    · exact ih x hx

theorem commentFree_sublist {l t : List Rune} (h : CommentFree l t) : t.Sublist l := by
  obtain ⟨a, b, h1, _⟩ := h
  refine List.Sublist.trans ?_ (List.takeWhile_sublist (· ≠ 0x25))
  rw [h1]
  exact (List.sublist_append_right a t).trans (List.sublist_append_left _ b)

theorem utf8s_length_le {t l : List Rune} (h : t.Sublist l) : (utf8s t).length ≤ (utf8s l).length := by
  induction h with
  | slnil => simp
  | cons a _ ih => simp only [utf8s, List.flatMap_cons, List.length_append] at *; omega
  | cons_cons a _ ih => simp only [utf8s, List.flatMap_cons, List.length_append] at *; omega

end Verif.Proofs
