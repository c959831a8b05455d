import Verif.Model.PrintTables
import Verif.Spec.GoTables
import Verif.Proofs.BuildTables

/-! # The source written by build_tables.go -/

namespace Verif.Proofs
open Verif.Go Verif.Model Verif.Spec

theorem hexLoop_acc (fuel : Nat) : ∀ (n : Nat) (acc : List Rune), hexLoop fuel n acc = hexLoop fuel n [] ++ acc := by
  induction fuel with
  | zero => intro n acc; rfl
  | succ fuel ih =>
    intro n acc
    by_cases h : 16 ≤ n
    · simp only [hexLoop, if_pos h]
      rw [ih, ih _ [_]]
      simp
    · simp [hexLoop, if_neg h]

theorem upperDigit_value {d : Nat} (h : d < 16) : HexDigit (upperDigit d) d := by
  unfold upperDigit HexDigit
  by_cases h' : d < 10
  · rw [if_pos h']; omega
  · rw [if_neg h']; omega

theorem hexLoop_value (fuel : Nat) : ∀ n : Nat, n ≤ fuel → HexNumber (hexLoop fuel n []) (n : Int) := by
  induction fuel with
  | zero =>
    intro n h
    obtain rfl : n = 0 := by omega
    exact .one (upperDigit_value (d := 0) (by omega))
  | succ fuel ih =>
    intro n hn
    by_cases h : 16 ≤ n
    · simp only [hexLoop, if_pos h]
      rw [hexLoop_acc]
      have h1 := HexNumber.snoc (ih (n / 16) (by omega)) (upperDigit_value (d := n % 16) (by omega))
      have e : (16 * ((n / 16 : Nat) : Int) + ((n % 16 : Nat) : Int)) = (n : Int) := by omega
      rw [e] at h1
      exact h1
    · simp only [hexLoop, if_neg h]
      exact .one (upperDigit_value (by omega))

theorem hexNumber_zero {ds : List Rune} {n : Int} (h : HexNumber ds n) : HexNumber (0x30 :: ds) n := by
  induction h with
  | @one d v h =>
    have h0 : HexNumber [0x30] 0 := .one (Or.inl (by omega))
    have h1 := HexNumber.snoc h0 h
    simpa using h1
  | @snoc ds n d v hn h ih => exact HexNumber.snoc ih h

theorem hexNumber_zeros {ds : List Rune} {n : Int} (h : HexNumber ds n) (k : Nat) :
    HexNumber (List.replicate k 0x30 ++ ds) n := by
  induction k with
  | zero => exact h
  | succ k ih => exact hexNumber_zero ih

theorem fmtHex04_value {v : Rune} (h : 0 ≤ v) : HexNumber (fmtHex04 v) v := by
  unfold fmtHex04
  rw [if_neg (by omega)]
  have h1 := hexLoop_value v.natAbs v.natAbs (Nat.le_refl _)
  rw [Int.natAbs_of_nonneg h] at h1
  exact hexNumber_zeros h1 _

theorem hexNumber_unique {ds : List Rune} {n m : Int} (h : HexNumber ds n) (h' : HexNumber ds m) : n = m := by
  have h1 := readDigits_append h (rest := []) (by intro r hr; cases hr)
  have h2 := readDigits_append h' (rest := []) (by intro r hr; cases hr)
  rw [h1] at h2
  exact (Prod.mk.inj h2).1

theorem hexNumber_digit {ds : List Rune} {n : Int} (h : HexNumber ds n) : ∀ d ∈ ds, ∃ v, HexDigit d v := by
  induction h with
  | one h => intro d hd; rw [List.mem_singleton.mp hd]; exact ⟨_, h⟩
  | snoc hn h ih =>
    intro d hd
    rcases List.mem_append.mp hd with hd | hd
    · exact ih d hd
    · rw [List.mem_singleton.mp hd]; exact ⟨_, h⟩

/-- A stretch of runes with a property that ends where the property does. -/
theorem stretch_unique {P : Rune → Prop} : ∀ {a a' : List Rune} {c c' : Rune} {s s' : List Rune},
    (∀ r ∈ a, P r) → (∀ r ∈ a', P r) → ¬ P c → ¬ P c' → a ++ c :: s = a' ++ c' :: s' → a = a' ∧ c = c' ∧ s = s'
  | [], [], c, c', s, s', _, _, _, _, e => by simpa using e
  | [], r' :: a', c, c', s, s', _, ha', hc, _, e => by
    simp only [List.nil_append, List.cons_append, List.cons.injEq] at e
    exact absurd (e.1 ▸ ha' r' (by simp)) hc
  | r :: a, [], c, c', s, s', ha, _, _, hc', e => by
    simp only [List.nil_append, List.cons_append, List.cons.injEq] at e
    exact absurd (e.1 ▸ ha r (by simp)) hc'
  | r :: a, r' :: a', c, c', s, s', ha, ha', hc, hc', e => by
    simp only [List.cons_append, List.cons.injEq] at e
    obtain ⟨h1, h2, h3⟩ := stretch_unique (fun x hx => ha x (by simp [hx])) (fun x hx => ha' x (by simp [hx])) hc hc' e.2
    exact ⟨by rw [e.1, h1], h2, h3⟩

theorem not_digit {c : Rune} (h : c = 0x2C ∨ c = 0x7D) : ¬ ∃ v, HexDigit c v := by
  rintro ⟨v, hv⟩; unfold HexDigit at hv; omega

theorem not_blank {c : Rune} (h : c = 0x7B ∨ c = 0x7D ∨ c = 0x30) : ¬ GoBlank c := by
  unfold GoBlank; omega

theorem runes_open : runesOf "{0x" = [0x7B, 0x30, 0x78] := by decide
theorem runes_comma : runesOf "," = [0x2C] := by decide
theorem runes_0x : runesOf "0x" = [0x30, 0x78] := by decide
theorem runes_close : runesOf "}," = [0x7D, 0x2C] := by decide
theorem runes_end : runesOf "}\n" = [0x7D, 0x0A] := by decide
theorem runes_var : runesOf "var " = [0x76, 0x61, 0x72, 0x20] := by decide
theorem runes_package : runesOf "package " = [0x70, 0x61, 0x63, 0x6B, 0x61, 0x67, 0x65, 0x20] := by decide
theorem runes_slash : runesOf "//" = [0x2F, 0x2F] := by decide
theorem runes_table : runesOf " = table{" = [0x20, 0x3D, 0x20, 0x74, 0x61, 0x62, 0x6C, 0x65, 0x7B] := by decide

/-- The elements of a literal, up to the brace that closes it, can be read in one way. -/
theorem goPairs_unique {body : List Rune} {t : List (Rune × Rune)} (h : GoPairs body t) :
    ∀ {body' : List Rune} {t' : List (Rune × Rune)} {s s' : List Rune}, GoPairs body' t' →
    body ++ 0x7D :: s = body' ++ 0x7D :: s' → t = t' ∧ body = body' ∧ s = s' := by
  induction h with
  | @nil w hw =>
    intro body' t' s s' h' e
    cases h' with
    | nil hw' =>
      obtain ⟨e1, -, e3⟩ := stretch_unique hw hw' (not_blank (by omega)) (not_blank (by omega)) e
      exact ⟨rfl, e1, e3⟩
    | @cons w' ds' v' es' s2 lo' hi' t' hw' hlo' hv' hhi' hs' =>
      simp only [runes_open, runes_comma, runes_0x, runes_close, List.append_assoc, List.cons_append, List.nil_append] at e
      obtain ⟨-, e2, -⟩ := stretch_unique hw hw' (not_blank (by omega)) (not_blank (by omega)) e
      exact absurd e2 (by decide)
  | @cons w ds v es s1 lo hi t hw hlo hv hhi hs ih =>
    intro body' t' s s' h' e
    cases h' with
    | nil hw' =>
      simp only [runes_open, runes_comma, runes_0x, runes_close, List.append_assoc, List.cons_append, List.nil_append] at e
      obtain ⟨-, e2, -⟩ := stretch_unique hw hw' (not_blank (by omega)) (not_blank (by omega)) e
      exact absurd e2 (by decide)
    | @cons w' ds' v' es' s2 lo' hi' t' hw' hlo' hv' hhi' hs' =>
      simp only [runes_open, runes_comma, runes_0x, runes_close, List.append_assoc, List.cons_append, List.nil_append] at e
      obtain ⟨rfl, -, e⟩ := stretch_unique hw hw' (not_blank (by omega)) (not_blank (by omega)) e
      simp only [List.cons.injEq, true_and] at e
      obtain ⟨rfl, -, e⟩ := stretch_unique (hexNumber_digit hlo) (hexNumber_digit hlo') (not_digit (by omega))
        (not_digit (by omega)) e
      obtain ⟨rfl, -, e⟩ := stretch_unique hv hv' (not_blank (by omega)) (not_blank (by omega)) e
      simp only [List.cons.injEq, true_and] at e
      obtain ⟨rfl, -, e⟩ := stretch_unique (hexNumber_digit hhi) (hexNumber_digit hhi') (not_digit (by omega))
        (not_digit (by omega)) e
      simp only [List.cons.injEq, true_and] at e
      obtain ⟨rfl, rfl, e4⟩ := ih hs' e
      rw [hexNumber_unique hlo hlo', hexNumber_unique hhi hhi']
      exact ⟨rfl, rfl, e4⟩

theorem not_letter {c : Rune} (h : c = 0x0A ∨ c = 0x20) : ¬ GoLetter c := by unfold GoLetter; omega

/-- A text declares one list of tables at most. -/
theorem goSource_unique {s : List Rune} {ds : List (List Rune × List (Rune × Rune))} (h : GoSource s ds) :
    ∀ {s' : List Rune} {ds' : List (List Rune × List (Rune × Rune))}, GoSource s' ds' → s = s' → ds = ds' := by
  induction h with
  | nil =>
    intro s' ds' h' e
    cases h' with
    | nil => rfl
    | blank => cases e
    | comment => simp [runes_slash] at e
    | package => simp [runes_package] at e
    | table => simp [runes_var] at e
  | @blank c s ds hc hs ih =>
    intro s' ds' h' e
    cases h' with
    | nil => cases e
    | blank hc' hs' => simp only [List.cons.injEq] at e; exact ih hs' e.2
    | comment =>
      simp [runes_slash] at e; unfold GoBlank at hc; omega
    | package => simp [runes_package] at e; unfold GoBlank at hc; omega
    | table => simp [runes_var] at e; unfold GoBlank at hc; omega
  | @comment l s ds hl hs ih =>
    intro s' ds' h' e
    cases h' with
    | nil => simp [runes_slash] at e
    | blank hc' hs' => simp [runes_slash] at e; unfold GoBlank at hc'; omega
    | @comment l' s' ds' hl' hs' =>
      simp only [List.append_assoc] at e
      obtain ⟨-, -, e⟩ := stretch_unique hl hl' (by simp) (by simp) (List.append_cancel_left e)
      exact ih hs' e
    | package => simp [runes_package, runes_slash] at e
    | table => simp [runes_var, runes_slash] at e
  | @package name s ds hn hne hs ih =>
    intro s' ds' h' e
    cases h' with
    | nil => simp [runes_package] at e
    | blank hc' hs' => simp [runes_package] at e; unfold GoBlank at hc'; omega
    | comment => simp [runes_package, runes_slash] at e
    | package hn' hne' hs' =>
      simp only [List.append_assoc] at e
      obtain ⟨-, -, e⟩ := stretch_unique hn hn' (not_letter (by omega)) (not_letter (by omega)) (List.append_cancel_left e)
      exact ih hs' e
    | table => simp [runes_var, runes_package] at e
  | @table name body s t ds hn hne hb hs ih =>
    intro s' ds' h' e
    cases h' with
    | nil => simp [runes_var] at e
    | blank hc' hs' => simp [runes_var] at e; unfold GoBlank at hc'; omega
    | comment => simp [runes_var, runes_slash] at e
    | package => simp [runes_var, runes_package] at e
    | table hn' hne' hb' hs' =>
      simp only [List.append_assoc] at e
      replace e := List.append_cancel_left e
      simp only [runes_table, runes_end, List.cons_append, List.nil_append] at e
      obtain ⟨rfl, -, e⟩ := stretch_unique hn hn' (not_letter (by omega)) (not_letter (by omega)) e
      simp only [List.cons.injEq, true_and] at e
      obtain ⟨rfl, rfl, e4⟩ := goPairs_unique hb hb' e
      simp only [List.cons.injEq, true_and] at e4
      rw [ih hs' e4]

/-- The elements of a table and what separates them from the brace. -/
theorem generateLoop_pairs {w' : List Rune} (hw' : ∀ c ∈ w', GoBlank c) : ∀ (t : List (Rune × Rune)) (i : Nat) {w : List Rune},
    (∀ c ∈ w, GoBlank c) → (∀ iv ∈ t, 0 ≤ iv.1 ∧ 0 ≤ iv.2) → GoPairs (w ++ generateLoop i t ++ w') t
  | [], i, w, hw, _ => .nil (by
      intro c hc
      simp only [generateLoop, List.append_nil, List.mem_append] at hc
      exact hc.elim (hw c) (hw' c))
  | (lo, hi) :: t, i, w, hw, h => by
    have hb : ∀ c ∈ (if t = [] then [] else if i % 3 = 2 then runesOf "\n\t" else runesOf " " : List Rune), GoBlank c := by
      intro c hc
      have e1 : runesOf "\n\t" = [0x0A, 0x09] := by decide
      have e2 : runesOf " " = [0x20] := by decide
      rw [e1, e2] at hc
      unfold GoBlank
      by_cases h1 : t = []
      · simp [h1] at hc
      · by_cases h2 : i % 3 = 2
        · simp [h1, h2] at hc; omega
        · simp [h1, h2] at hc; omega
    have ih := generateLoop_pairs hw' t (i + 1) hb (fun iv hiv => h iv (by simp [hiv]))
    have h0 := h (lo, hi) (by simp)
    have hsp : ∀ c ∈ ([0x20] : List Rune), GoBlank c := by
      intro c hc; rw [List.mem_singleton.mp hc]; exact Or.inl rfl
    have h1 := GoPairs.cons hw (fmtHex04_value h0.1) hsp (fmtHex04_value h0.2) ih
    have e3 : runesOf ", 0x" = runesOf "," ++ [0x20] ++ runesOf "0x" := by decide
    simp only [generateLoop, e3]
    simp only [List.append_assoc] at h1 ⊢
    exact h1

theorem generate_source {v : String} {t : List (Rune × Rune)} {s : List Rune}
    {ds : List (List Rune × List (Rune × Rune))} (hv : ∀ c ∈ runesOf v, GoLetter c) (hne : runesOf v ≠ [])
    (ht : ∀ iv ∈ t, 0 ≤ iv.1 ∧ 0 ≤ iv.2) (hs : GoSource s ds) :
    GoSource (generate v t ++ s) ((runesOf v, t) :: ds) := by
  have hw : ∀ c ∈ ([0x0A, 0x09] : List Rune), GoBlank c := by
    intro c hc; simp at hc; unfold GoBlank; omega
  have hw' : ∀ c ∈ ([0x0A] : List Rune), GoBlank c := by
    intro c hc; simp at hc; unfold GoBlank; omega
  have h := GoSource.table hv hne (generateLoop_pairs hw' t 0 hw ht) hs
  have e1 : runesOf " = table{\n\t" = runesOf " = table{" ++ [0x0A, 0x09] := by decide
  have e2 : runesOf "\n}\n" = [0x0A] ++ runesOf "}\n" := by decide
  unfold generate
  rw [e1, e2]
  simp only [List.append_assoc] at h ⊢
  exact h

theorem letters_of (v : String) (h : ((runesOf v).all (fun c => decide (0x61 ≤ c) && decide (c ≤ 0x7A)) &&
    !(runesOf v).isEmpty) = true) : (∀ c ∈ runesOf v, GoLetter c) ∧ runesOf v ≠ [] := by
  simp only [Bool.and_eq_true, List.all_eq_true, decide_eq_true_eq] at h
  refine ⟨fun c hc => h.1 c hc, fun e => ?_⟩
  rw [e] at h
  simp at h

theorem blank_source {s : List Rune} {ds : List (List Rune × List (Rune × Rune))} (hs : GoSource s ds) :
    GoSource (runesOf "\n" ++ s) ds :=
  .blank (c := 0x0A) (Or.inr (Or.inr rfl)) hs

/-- What is written for the tables, whatever comes after. -/
theorem printEastasian_source {t : WidthTables} {s : List Rune} {ds : List (List Rune × List (Rune × Rune))}
    (h : ∀ iv ∈ t.cmb ++ t.dbl ++ t.amb ++ t.na ++ t.nu, 0 ≤ iv.1 ∧ 0 ≤ iv.2) (hs : GoSource s ds) :
    GoSource (printEastasian t ++ s) ((runesOf "combining", t.cmb) :: (runesOf "doublewidth", t.dbl) ::
      (runesOf "ambiguous", t.amb) :: (runesOf "narrow", t.na) :: (runesOf "neutral", t.nu) :: ds) := by
  have l1 := letters_of "combining" (by decide)
  have l2 := letters_of "doublewidth" (by decide)
  have l3 := letters_of "ambiguous" (by decide)
  have l4 := letters_of "narrow" (by decide)
  have l5 := letters_of "neutral" (by decide)
  unfold printEastasian
  simp only [List.append_assoc]
  simp only [List.mem_append] at h
  exact generate_source l1.1 l1.2 (fun iv hiv => h iv (by simp [hiv])) (blank_source
    (generate_source l2.1 l2.2 (fun iv hiv => h iv (by simp [hiv])) (blank_source
    (generate_source l3.1 l3.2 (fun iv hiv => h iv (by simp [hiv]))
    (generate_source l4.1 l4.2 (fun iv hiv => h iv (by simp [hiv])) (blank_source
    (generate_source l5.1 l5.2 (fun iv hiv => h iv (by simp [hiv])) (blank_source hs))))))))

theorem comment_source (v : String) {s : List Rune} {ds : List (List Rune × List (Rune × Rune))}
    (h : ∃ l, runesOf v = runesOf "//" ++ l ++ [0x0A] ∧ (∀ c ∈ l, c ≠ 0x0A)) (hs : GoSource s ds) :
    GoSource (runesOf v ++ s) ds := by
  obtain ⟨l, e, hl⟩ := h
  have h1 := GoSource.comment hl hs
  rw [e]
  simpa using h1

theorem comment_of (v : String) (h : (decide (runesOf v = runesOf "//" ++ ((runesOf v).drop 2).dropLast ++ [0x0A]) &&
    ((runesOf v).drop 2).dropLast.all (fun c => decide (c ≠ 0x0A))) = true) :
    ∃ l, runesOf v = runesOf "//" ++ l ++ [0x0A] ∧ (∀ c ∈ l, c ≠ 0x0A) := by
  simp only [Bool.and_eq_true, List.all_eq_true, decide_eq_true_eq] at h
  exact ⟨_, h.1, h.2⟩

theorem package_source {s : List Rune} {ds : List (List Rune × List (Rune × Rune))} (hs : GoSource s ds) :
    GoSource (runesOf "package runes\n" ++ s) ds := by
  have l := letters_of "runes" (by decide)
  have h := GoSource.package l.1 l.2 hs
  have e : runesOf "package runes\n" = runesOf "package " ++ runesOf "runes" ++ [0x0A] := by decide
  rw [e]
  simpa using h

def headLine1 : String := "// Code generated by build_tables.go. DO NOT EDIT.\n"
def headLine2 : String :=
  "// unicode EastAsianWidth properties retrieved from https://unicode.org/Public/15.0.0/ucd/EastAsianWidth.txt\n"
def headLine3 : String :=
  "// unicode emoji properties retrieved from https://unicode.org/Public/15.0.0/ucd/emoji/emoji-data.txt\n"

theorem printHead_eq : printHead = runesOf headLine1 ++ runesOf "\n" ++ runesOf "package runes\n" ++ runesOf "\n" ++
    runesOf "\n" ++ runesOf headLine2 ++ runesOf headLine3 ++ runesOf "\n" := by decide +kernel

theorem head_source {s : List Rune} {ds : List (List Rune × List (Rune × Rune))} (hs : GoSource s ds) :
    GoSource (runesOf headLine1 ++ (runesOf "\n" ++ (runesOf "package runes\n" ++ (runesOf "\n" ++
      (runesOf headLine2 ++ (runesOf headLine3 ++ (runesOf "\n" ++ s))))))) ds :=
  comment_source headLine1 (comment_of _ (by decide +kernel)) (blank_source (package_source (blank_source
    (comment_source headLine2 (comment_of _ (by decide +kernel))
    (comment_source headLine3 (comment_of _ (by decide +kernel)) (blank_source hs))))))

theorem printHead_source {s : List Rune} {ds : List (List Rune × List (Rune × Rune))} (hs : GoSource s ds) :
    GoSource (printHead ++ s) ds := by
  rw [printHead_eq]
  simp only [List.append_assoc]
  exact comment_source headLine1 (comment_of _ (by decide +kernel)) (blank_source (package_source (blank_source
    (blank_source (comment_source headLine2 (comment_of _ (by decide +kernel))
    (comment_source headLine3 (comment_of _ (by decide +kernel)) (blank_source hs)))))))

end Verif.Proofs
