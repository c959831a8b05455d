import Verif.Model.BuildTables
import Verif.Spec.Ucd
import Verif.Spec.Width
import Verif.Proofs.Scanner
import Verif.Proofs.Utf8

/-! # Proofs about the program that makes the tables of ranges -/

namespace Verif.Proofs
open Verif.Go Verif.Model Verif.Spec

/-! ## shapeup -/

/-- What shapeup does with a range and those that follow. -/
def mergeRanges : Rune × Rune → List (Rune × Rune) → List (Rune × Rune)
  | a, [] => [a]
  | a, b :: l => if a.2 + 1 = b.1 then mergeRanges (a.1, b.2) l else a :: mergeRanges b l

theorem shapeupLoop_eq : ∀ (fuel : Nat) (l pre : List (Rune × Rune)) (a : Rune × Rune), l.length < fuel →
    shapeupLoop fuel pre.length (pre ++ a :: l) = pre ++ mergeRanges a l := by
  intro fuel
  induction fuel with
  | zero => intro l pre a h; omega
  | succ fuel ih =>
    intro l pre a h
    cases l with
    | nil => simp [shapeupLoop, mergeRanges]
    | cons b l =>
      have h1 : (pre ++ a :: b :: l)[pre.length]? = some a := by simp
      have h2 : (pre ++ a :: b :: l)[pre.length + 1]? = some b := by
        rw [List.getElem?_append_right (by omega)]
        simp
      simp only [shapeupLoop, h1, h2, mergeRanges]
      simp only [List.length_cons] at h
      split
      · have e : ((pre ++ a :: b :: l).take pre.length ++ (pre ++ a :: b :: l).drop (pre.length + 1)).modify pre.length
            (fun c => (a.1, c.2)) = pre ++ (a.1, b.2) :: l := by
          have e1 : (pre ++ a :: b :: l).take pre.length = pre := by simp
          have e2 : (pre ++ a :: b :: l).drop (pre.length + 1) = b :: l := by
            rw [List.drop_append]
            simp
          rw [e1, e2]
          clear e1 e2 h1 h2 ih
          induction pre with
          | nil => rfl
          | cons x pre ih => simpa [List.modify] using ih
        rw [e, ih l pre _ (by omega)]
      · have := ih l (pre ++ [a]) b (by omega)
        simpa using this

theorem shapeup_eq (a : Rune × Rune) (l : List (Rune × Rune)) : shapeup (a :: l) = mergeRanges a l := by
  have := shapeupLoop_eq (l.length + 1) l [] a (by omega)
  simpa [shapeup] using this

theorem mergeRanges_covers (l : List (Rune × Rune)) : ∀ (a : Rune × Rune), a.1 ≤ a.2 → (∀ iv ∈ l, iv.1 ≤ iv.2) →
    ∀ r, InRanges (mergeRanges a l) r ↔ InRanges (a :: l) r := by
  induction l with
  | nil => intro a _ _ r; rfl
  | cons b l ih =>
    intro a ha hl r
    have hb := hl b (by simp)
    unfold mergeRanges
    split
    · rename_i he
      rw [ih (a.1, b.2) (by simp only; omega) (fun iv hiv => hl iv (by simp [hiv])) r]
      simp only [InRanges, List.mem_cons, exists_eq_or_imp]
      constructor
      · rintro (h | h)
        · by_cases hr : r ≤ a.2
          · exact Or.inl ⟨h.1, hr⟩
          · exact Or.inr (Or.inl ⟨by omega, h.2⟩)
        · exact Or.inr (Or.inr h)
      · rintro (h | h | h)
        · exact Or.inl ⟨h.1, by have := h.2; show r ≤ b.2; omega⟩
        · exact Or.inl ⟨by have := h.1; show a.1 ≤ r; omega, h.2⟩
        · exact Or.inr h
    · have := ih b hb (fun iv hiv => hl iv (by simp [hiv])) r
      simp only [InRanges, List.mem_cons, exists_eq_or_imp] at this ⊢
      rw [this]

theorem mergeRanges_separated (l : List (Rune × Rune)) : ∀ (a : Rune × Rune), SortedRanges (a :: l) →
    SeparatedRanges (mergeRanges a l) ∧ ∀ iv ∈ mergeRanges a l, a.1 ≤ iv.1 := by
  induction l with
  | nil =>
    intro a h
    refine ⟨⟨h.1, by simp [mergeRanges]⟩, ?_⟩
    intro iv hiv
    simp only [mergeRanges, List.mem_singleton] at hiv
    subst hiv
    exact Int.le_refl _
  | cons b l ih =>
    intro a ⟨h1, h2⟩
    have ha := h1 a (by simp)
    have hb := h1 b (by simp)
    rw [List.pairwise_cons] at h2
    have hab := h2.1 b (by simp)
    have hbl := List.pairwise_cons.mp h2.2
    unfold mergeRanges
    split
    · rename_i he
      refine ih (a.1, b.2) ⟨?_, ?_⟩
      · intro iv hiv
        rcases List.mem_cons.mp hiv with rfl | hiv
        · simp only; omega
        · exact h1 iv (by simp [hiv])
      · exact List.pairwise_cons.mpr ⟨hbl.1, hbl.2⟩
    · rename_i he
      obtain ⟨⟨i1, i2⟩, i3⟩ := ih b ⟨fun iv hiv => h1 iv (by simp at hiv ⊢; exact Or.inr hiv), h2.2⟩
      refine ⟨⟨?_, List.pairwise_cons.mpr ⟨fun iv hiv => ?_, i2⟩⟩, ?_⟩
      · intro iv hiv
        rcases List.mem_cons.mp hiv with rfl | hiv
        · exact ha
        · exact i1 iv hiv
      · have := i3 iv hiv
        omega
      · intro iv hiv
        rcases List.mem_cons.mp hiv with rfl | hiv
        · exact Int.le_refl _
        · have := i3 iv hiv
          omega

theorem shapeup_separated {l : List (Rune × Rune)} (h : SortedRanges l) : SeparatedRanges (shapeup l) := by
  cases l with
  | nil => exact ⟨by simp [shapeup, shapeupLoop], by simp [shapeup, shapeupLoop]⟩
  | cons a l => rw [shapeup_eq]; exact (mergeRanges_separated l a h).1

theorem shapeup_covers {l : List (Rune × Rune)} (h : ∀ iv ∈ l, iv.1 ≤ iv.2) (r : Rune) :
    InRanges (shapeup l) r ↔ InRanges l r := by
  cases l with
  | nil => rfl
  | cons a l => rw [shapeup_eq]; exact mergeRanges_covers l a (h a (by simp)) (fun iv hiv => h iv (by simp [hiv])) r

theorem separated_sorted {l : List (Rune × Rune)} (h : SeparatedRanges l) : SortedRanges l :=
  ⟨h.1, h.2.imp fun {a b} (hab : a.2 + 1 < b.1) => by omega⟩

/-! ## Reading numbers -/

theorem hexDigitValue_iff {d : Rune} {v : Int} : hexDigitValue d = some v ↔ HexDigit d v := by
  unfold hexDigitValue HexDigit
  split
  · simp only [Option.some.injEq]; omega
  · split
    · simp only [Option.some.injEq]; omega
    · split
      · simp only [Option.some.injEq]; omega
      · simp only [reduceCtorEq, false_iff]; omega

theorem hexDigit_facts {d : Rune} {v : Int} (h : HexDigit d v) :
    isSpace d = false ∧ d ≠ 0x2D ∧ d ≠ 0x2B ∧ d ≠ 0x23 ∧ 0 ≤ v := by
  unfold HexDigit at h
  refine ⟨?_, by omega, by omega, by omega, by omega⟩
  cases hs : isSpace d with
  | false => rfl
  | true =>
    exfalso
    simp only [isSpace, Bool.or_eq_true, Bool.and_eq_true, beq_iff_eq, decide_eq_true_eq] at hs
    omega

theorem readDigits_append {ds : List Rune} {n : Int} (h : HexNumber ds n) : ∀ {rest : List Rune},
    (∀ r, rest.head? = some r → hexDigitValue r = none) → readDigits 0 (ds ++ rest) = (n, rest) := by
  have key : ∀ rest, readDigits 0 (ds ++ rest) = readDigits n rest := by
    induction h with
    | one h => intro rest; simp [readDigits, hexDigitValue_iff.mpr h]
    | snoc hn h ih =>
      intro rest
      rw [List.append_assoc, ih]
      simp [readDigits, hexDigitValue_iff.mpr h]
  intro rest hr
  rw [key]
  cases rest with
  | nil => rfl
  | cons c l => simp [readDigits, hr c rfl]

theorem hexNumber_facts {ds : List Rune} {n : Int} (h : HexNumber ds n) :
    0 ≤ n ∧ ∃ d v ds', ds = d :: ds' ∧ HexDigit d v := by
  induction h with
  | @one d v h => exact ⟨(hexDigit_facts h).2.2.2.2, d, v, [], rfl, h⟩
  | snoc hn h ih =>
    obtain ⟨i1, d, v, ds', i2, i3⟩ := ih
    have := (hexDigit_facts h).2.2.2.2
    exact ⟨by omega, d, v, ds' ++ [_], by rw [i2]; rfl, i3⟩

theorem scanHex_append {ds : List Rune} {n : Int} (h : HexNumber ds n) (hn : n ≤ 0x10FFFF) {rest : List Rune}
    (hr : ∀ r, rest.head? = some r → hexDigitValue r = none) : scanHex (ds ++ rest) = some (n, rest) := by
  have hd := readDigits_append h hr
  obtain ⟨h0, d, v, ds', rfl, hdv⟩ := hexNumber_facts h
  obtain ⟨f1, f2, f3, _, _⟩ := hexDigit_facts hdv
  have hv := hexDigitValue_iff.mpr hdv
  unfold scanHex
  simp only [List.cons_append] at hd ⊢
  rw [List.dropWhile_cons_of_neg (by simp [f1])]
  simp only [List.head?_cons, Option.some.injEq, f2, f3, Bool.or_false, beq_eq_false_iff_ne.mpr,
    ne_eq, not_false_eq_true, Bool.false_eq_true, if_false, hv, reduceCtorEq, hd]
  rw [if_pos (by omega)]

theorem nondigit {c : Rune} (h : c = 0x2E ∨ c = 0x3B) : hexDigitValue c = none := by
  rcases h with rfl | rfl <;> decide

theorem nondigit_space {c : Rune} (h : isSpace c = true) : hexDigitValue c = none := by
  cases hv : hexDigitValue c with
  | none => rfl
  | some v =>
    have := (hexDigit_facts (hexDigitValue_iff.mp hv)).1
    rw [h] at this
    cases this

/-! ## Lines -/

theorem span_word {p : Rune → Bool} : ∀ {w rest : List Rune}, (∀ r ∈ w, p r = true) →
    (∀ r, rest.head? = some r → p r = false) → (w ++ rest).takeWhile p = w ∧ (w ++ rest).dropWhile p = rest
  | [], rest, _, hr => by
    cases rest with
    | nil => exact ⟨rfl, rfl⟩
    | cons c l =>
      have := hr c rfl
      exact ⟨List.takeWhile_cons_of_neg (by simp [this]), List.dropWhile_cons_of_neg (by simp [this])⟩
  | c :: w, rest, hw, hr => by
    have hc := hw c (by simp)
    obtain ⟨i1, i2⟩ := span_word (w := w) (fun r hr => hw r (by simp [hr])) hr
    rw [List.cons_append, List.takeWhile_cons_of_pos hc, List.dropWhile_cons_of_pos hc, i1, i2]
    exact ⟨rfl, rfl⟩

theorem scanBlank_ok {rest : List Rune} (h : Remainder rest) : ∃ l, scanBlank rest = some l := by
  cases rest with
  | nil => exact ⟨[], rfl⟩
  | cons c l => exact ⟨_, by simp [scanBlank, h c rfl]; rfl⟩

theorem scanWord_append {w rest : List Rune} (hne : w ≠ []) (hw : ∀ r ∈ w, isSpace r = false) (h : Remainder rest) :
    scanWord (w ++ rest) = some (w, rest) := by
  obtain ⟨h1, h2⟩ := span_word (p := fun r => !isSpace r) (w := w) (rest := rest) (fun r hr => by simp [hw r hr])
    (fun r hr => by simp [h r hr])
  obtain ⟨c, w', rfl⟩ := List.exists_cons_of_ne_nil hne
  unfold scanWord
  rw [List.cons_append, List.dropWhile_cons_of_neg (by simp [hw c (by simp)])]
  rw [List.cons_append] at h1 h2
  simp only [h1, h2]
  simp

theorem widthEntryOf_entry {e : UcdEntry} (h : WidthEntry e) : widthEntryOf e.line = some (e.lo, e.hi, e.cls) := by
  obtain ⟨rest, ⟨h1, h2, h3⟩, h4, h5, h6⟩ := h
  obtain ⟨l, hl⟩ := scanBlank_ok h6
  have hw := scanWord_append h4 h5 h6
  rcases h3 with ⟨ds, es, n1, n2, hline⟩ | ⟨ds, n1, hhi, hline⟩
  · have hline' : e.line = ds ++ (0x2E :: 0x2E :: (es ++ (0x3B :: (e.cls ++ rest)))) := by rw [hline]; simp
    have : sscanfRangeClass e.line = some (e.lo, e.hi, e.cls) := by
      unfold sscanfRangeClass
      rw [hline', scanHex_append n1 h1 (by intro r hr; simp at hr; exact nondigit (Or.inl hr.symm))]
      simp only [Option.bind_eq_bind, Option.bind_some, scanChar, if_true]
      rw [scanHex_append n2 h2 (by intro r hr; simp at hr; exact nondigit (Or.inr hr.symm))]
      simp only [Option.bind_some, if_true, hw, hl]
    simp [widthEntryOf, this]
  · have g1 : sscanfRangeClass e.line = none := by
      unfold sscanfRangeClass
      rw [hline, scanHex_append n1 h1 (by intro r hr; simp at hr; exact nondigit (Or.inr hr.symm))]
      simp [scanChar]
    have g2 : sscanfClass e.line = some (e.lo, e.cls) := by
      unfold sscanfClass
      rw [hline, scanHex_append n1 h1 (by intro r hr; simp at hr; exact nondigit (Or.inr hr.symm))]
      simp only [Option.bind_eq_bind, Option.bind_some, scanChar, if_true, hw, hl]
    simp [widthEntryOf, g1, g2, hhi]

theorem emojiEntryOf_entry {e : UcdEntry} (h : EmojiEntry e) : emojiEntryOf e.line = some (e.lo, e.hi) := by
  obtain ⟨rest, ⟨h1, h2, h3⟩, h6⟩ := h
  obtain ⟨l, hl⟩ := scanBlank_ok h6
  rcases h3 with ⟨ds, es, n1, n2, hline⟩ | ⟨ds, n1, hhi, hline⟩
  · have hline' : e.line = ds ++ (0x2E :: 0x2E :: (es ++ rest)) := by rw [hline]; simp
    have : sscanfRange e.line = some (e.lo, e.hi) := by
      unfold sscanfRange
      rw [hline', scanHex_append n1 h1 (by intro r hr; simp at hr; exact nondigit (Or.inl hr.symm))]
      simp only [Option.bind_eq_bind, Option.bind_some, scanChar, if_true]
      rw [scanHex_append n2 h2 (fun r hr => nondigit_space (h6 r hr))]
      simp only [Option.bind_some, hl]
    simp [emojiEntryOf, this]
  · have g1 : sscanfRange e.line = none := by
      unfold sscanfRange
      rw [hline, scanHex_append n1 h1 (fun r hr => nondigit_space (h6 r hr))]
      cases rest with
      | nil => simp [scanChar]
      | cons c l' =>
        have : c ≠ 0x2E := by
          intro hc
          have := h6 c rfl
          subst hc
          revert this
          decide
        simp [scanChar, this]
    have g2 : sscanfPoint e.line = some e.lo := by
      unfold sscanfPoint
      rw [hline, scanHex_append n1 h1 (fun r hr => nondigit_space (h6 r hr))]
      simp only [Option.bind_eq_bind, Option.bind_some, hl]
    simp [emojiEntryOf, g1, g2, hhi]

theorem entry_head {line : List Rune} {lo hi : Rune} {after : List Rune} (h : RangeThen line lo hi after) :
    hasPrefix line [0x23] = false ∧ line ≠ [] := by
  obtain ⟨_, _, h3⟩ := h
  have : ∃ ds n l, HexNumber ds n ∧ line = ds ++ l := by
    rcases h3 with ⟨ds, es, n1, n2, hline⟩ | ⟨ds, n1, hhi, hline⟩
    · exact ⟨ds, lo, [0x2E, 0x2E] ++ es ++ after, n1, by rw [hline]; simp⟩
    · exact ⟨ds, lo, after, n1, hline⟩
  obtain ⟨ds, n, l, hn, rfl⟩ := this
  obtain ⟨_, d, v, ds', rfl, hd⟩ := hexNumber_facts hn
  have hd3 : d ≠ 0x23 := (hexDigit_facts hd).2.2.2.1
  refine ⟨?_, by simp⟩
  simp [hasPrefix, List.isPrefixOf, beq_eq_false_iff_ne, hd3.symm]

theorem containsText_iff (sub : List Rune) (l : List Rune) : containsText sub l = true ↔ sub <:+: l := by
  induction l with
  | nil =>
    simp only [containsText, List.isPrefixOf_iff_prefix]
    constructor
    · intro h; exact h.isInfix
    · intro h; rw [List.infix_nil.mp h]; exact List.prefix_rfl
  | cons c l ih =>
    simp only [containsText, Bool.or_eq_true, List.isPrefixOf_iff_prefix, ih]
    exact List.infix_cons_iff.symm

/-! ## Files -/

theorem scanFold_spec {σ : Type} (body : σ → List Rune → σ) : ∀ (fuel : Nat) (s : Scanner) (ls : List (List Nat)) (st : σ),
    ScanInv s → FileOf (Scanner.content s) ls → FitsBuffer (Scanner.content s) → (Scanner.content s).length < fuel →
    scanFold body fuel s st = (ls.map stringRunes).foldl body st := by
  intro fuel
  induction fuel with
  | zero => intro s ls st _ _ _ h; omega
  | succ fuel ih =>
    intro s ls st hi hf hlen hfu
    have hs := scan_file hi hf hlen
    cases ls with
    | nil =>
      obtain ⟨s', h1, h2, h3⟩ := hs
      simp [scanFold, h1]
    | cons l ls =>
      obtain ⟨s', h1, h2, h3, hlen', h4⟩ := hs
      simp only [scanFold, h1]
      rw [ih s' ls _ h2 h3 hlen' (by omega)]
      rfl

theorem scanFold_file {σ : Type} (body : σ → List Rune → σ) (st : σ) (data : List Nat) (ls : List (List Rune))
    (hs : ∀ l ∈ ls, ∀ r ∈ l, IsScalar r) (hf : FileOf data (ls.map utf8s))
    (hlen : ∀ l ∈ ls, (utf8s l).length ≤ 65534) :
    scanFold body (data.length + 1) (newScanner data) st = ls.foldl body st := by
  have hc : Scanner.content (newScanner data) = data := by simp [Scanner.content, newScanner]
  rw [scanFold_spec body _ _ (ls.map utf8s) st (newScanner_inv data) (by rw [hc]; exact hf)
    (by rw [hc]; exact fits_of_lines hf (by simpa using hlen))
    (by rw [hc]; omega)]
  congr 1
  rw [List.map_map]
  refine (List.map_congr_left (g := fun l => l) fun l hl => ?_).trans (List.map_id' _)
  exact stringRunes_utf8s l (hs l hl)

/-- The ranges of the entries that satisfy `p`. -/
def rangesOf (p : UcdEntry → Bool) (es : List UcdEntry) : List (Rune × Rune) :=
  (es.filter p).map (fun e => (e.lo, e.hi))

theorem rangesOf_cons (p : UcdEntry → Bool) (e : UcdEntry) (es : List UcdEntry) :
    rangesOf p (e :: es) = (if p e then [(e.lo, e.hi)] else []) ++ rangesOf p es := by
  unfold rangesOf
  rw [List.filter_cons]
  split <;> simp

def isCls (c : List Rune) (e : UcdEntry) : Bool := decide (e.cls = c)
def isDbl (e : UcdEntry) : Bool := decide (e.cls = runesOf "W" ∨ e.cls = runesOf "F")
def isCmb (e : UcdEntry) : Bool := containsText (runesOf "COMBINING") e.line

theorem foldl_width {ls : List (List Rune)} {es : List UcdEntry} (h : UcdFile WidthEntry ls es) : ∀ t : WidthTables,
    ls.foldl eastasianLine t = ⟨t.dbl ++ rangesOf isDbl es, t.amb ++ rangesOf (isCls (runesOf "A")) es,
      t.cmb ++ rangesOf isCmb es, t.na ++ rangesOf (isCls (runesOf "Na")) es,
      t.nu ++ rangesOf (isCls (runesOf "N")) es⟩ := by
  induction h with
  | nil => intro t; simp [rangesOf]
  | skip h hs ih =>
    intro t
    rename_i l ls es
    rw [List.foldl_cons]
    have : eastasianLine t l = t := by
      rcases h with rfl | h
      · rfl
      · cases l with
        | nil => simp at h
        | cons c l =>
          simp only [List.head?_cons, Option.some.injEq] at h
          subst h
          rfl
    rw [this, ih]
  | @entry e ls es h hs ih =>
    intro t
    rw [List.foldl_cons]
    have hp : hasPrefix e.line [0x23] = false := by
      obtain ⟨rest, h, _⟩ := h
      exact (entry_head h).1
    have he := widthEntryOf_entry h
    have hb : eastasianLine t e.line = addClass e.cls (e.lo, e.hi)
        (if isCmb e then { t with cmb := t.cmb ++ [(e.lo, e.hi)] } else t) := by
      unfold eastasianLine
      simp only [hp, Bool.false_eq_true, if_false, he, isCmb]
      rfl
    rw [hb, ih]
    simp only [rangesOf_cons]
    have hWN : runesOf "W" ≠ runesOf "N" ∧ runesOf "W" ≠ runesOf "A" ∧ runesOf "W" ≠ runesOf "Na" ∧
      runesOf "F" ≠ runesOf "N" ∧ runesOf "F" ≠ runesOf "A" ∧ runesOf "F" ≠ runesOf "Na" ∧
      runesOf "A" ≠ runesOf "Na" ∧ runesOf "A" ≠ runesOf "N" ∧ runesOf "Na" ≠ runesOf "N" := by decide
    obtain ⟨w1, w2, w3, w4, w5, w6, w7, w8, w9⟩ := hWN
    have hw : ∀ u : WidthTables, addClass e.cls (e.lo, e.hi) u =
        ⟨u.dbl ++ (if isDbl e then [(e.lo, e.hi)] else []),
         u.amb ++ (if isCls (runesOf "A") e then [(e.lo, e.hi)] else []), u.cmb,
         u.na ++ (if isCls (runesOf "Na") e then [(e.lo, e.hi)] else []),
         u.nu ++ (if isCls (runesOf "N") e then [(e.lo, e.hi)] else [])⟩ := by
      intro u
      unfold addClass isDbl isCls
      by_cases c1 : e.cls = runesOf "W"
      · simp [c1, w1, w2, w3]
      · by_cases c2 : e.cls = runesOf "F"
        · simp [c2, w4, w5, w6]
        · by_cases c3 : e.cls = runesOf "A"
          · simp [c3, w2.symm, w5.symm, w7, w8]
          · by_cases c4 : e.cls = runesOf "Na"
            · simp [c4, w3.symm, w6.symm, w7.symm, w9]
            · by_cases c5 : e.cls = runesOf "N"
              · simp [c5, w1.symm, w4.symm, w8.symm, w9.symm]
              · simp [c1, c2, c3, c4, c5]
    rw [hw]
    cases hc : isCmb e <;> simp

theorem foldl_emoji {ls : List (List Rune)} {es : List UcdEntry} (h : UcdFile EmojiEntry ls es) :
    ∀ t : List (Rune × Rune), ls.foldl emojiLine t =
      t ++ rangesOf (fun e => containsText (runesOf "Extended_Pictographic") e.line && decide (0xFF ≤ e.hi)) es := by
  induction h with
  | nil => intro t; simp [rangesOf]
  | skip h hs ih =>
    intro t
    rename_i l ls es
    rw [List.foldl_cons]
    have : emojiLine t l = t := by
      rcases h with rfl | h
      · simp [emojiLine, containsText, hasPrefix, show List.isPrefixOf (runesOf "Extended_Pictographic") [] = false from by decide]
      · cases l with
        | nil => simp at h
        | cons c l =>
          simp only [List.head?_cons, Option.some.injEq] at h
          subst h
          rfl
    rw [this, ih]
  | @entry e ls es h hs ih =>
    intro t
    rw [List.foldl_cons]
    have hp : hasPrefix e.line [0x23] = false := by
      obtain ⟨rest, h, _⟩ := h
      exact (entry_head h).1
    have he := emojiEntryOf_entry h
    have hb : emojiLine t e.line = t ++ (if (containsText (runesOf "Extended_Pictographic") e.line &&
        decide (0xFF ≤ e.hi)) then [(e.lo, e.hi)] else []) := by
      unfold emojiLine
      cases hc : containsText (runesOf "Extended_Pictographic") e.line with
      | false => simp [hp]
      | true =>
        simp only [hp, Bool.false_eq_true, if_false, he, Bool.not_true, Bool.true_and, decide_eq_true_eq]
        by_cases hlt : e.hi < 0xFF
        · rw [if_pos hlt, if_neg (by omega)]; simp
        · rw [if_neg hlt, if_pos (by omega)]
    rw [hb, ih, rangesOf_cons, List.append_assoc]

theorem rangesOf_sorted {es : List UcdEntry} (p : UcdEntry → Bool)
    (h : SortedRanges (es.map (fun e => (e.lo, e.hi)))) : SortedRanges (rangesOf p es) := by
  obtain ⟨h1, h2⟩ := h
  have hs : (rangesOf p es).Sublist (es.map (fun e => (e.lo, e.hi))) := (List.filter_sublist).map _
  exact ⟨fun iv hiv => h1 iv (hs.subset hiv), h2.sublist hs⟩

theorem inRanges_rangesOf (p : UcdEntry → Bool) (es : List UcdEntry) (r : Rune) :
    InRanges (rangesOf p es) r ↔ ∃ e ∈ es, p e = true ∧ e.lo ≤ r ∧ r ≤ e.hi := by
  unfold InRanges rangesOf
  constructor
  · rintro ⟨iv, hiv, h1, h2⟩
    obtain ⟨e, he, rfl⟩ := List.mem_map.mp hiv
    obtain ⟨he, hp⟩ := List.mem_filter.mp he
    exact ⟨e, he, hp, h1, h2⟩
  · rintro ⟨e, he, hp, h1, h2⟩
    exact ⟨(e.lo, e.hi), List.mem_map.mpr ⟨e, List.mem_filter.mpr ⟨he, hp⟩, rfl⟩, h1, h2⟩

end Verif.Proofs
