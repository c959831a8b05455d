import Verif.Model.Packed
import Verif.Proofs.Scanner
import Verif.Proofs.Dictionary
import Verif.Proofs.Utf8

/-! # Checking the bytes of pattern files

A check of all the patterns of a file, that the kernel evaluates quickly, and what follows from it. -/

namespace Verif.Proofs
open Verif.Go Verif.Model Verif.Spec

/-! ## Strings cut at ASCII bytes -/

theorem decodeRune_len (b : Nat) (s : List Nat) : 1 ≤ (decodeRune (b :: s)).2 ∧
    (decodeRune (b :: s)).2 ≤ s.length + 1 := by
  unfold decodeRune
  split
  · rename_i h; cases h
  · rename_i b0 s0 h
    simp only [List.cons.injEq] at h
    obtain ⟨rfl, rfl⟩ := h
    split
    · simp
    · split
      · simp
      · split
        · simp
        · split
          · simp
          · split
            · simp
            · split
              · simp
              · split
                · simp
                · split
                  · simp
                  · split
                    · simp
                    · split <;> simp

/-- A byte below 0x80 is never part of a longer sequence. -/
theorem decodeRune_before_ascii (b : Nat) (s t : List Nat) (c : Nat) (hc : c < 0x80) :
    decodeRune (b :: s ++ c :: t) = decodeRune (b :: s) := by
  have hr : c < (acceptRange b).1 := by
    unfold acceptRange
    repeat' split
    all_goals simp; omega
  simp only [List.cons_append]
  conv => lhs; unfold decodeRune
  conv => rhs; unfold decodeRune
  simp only
  split
  · rfl
  · split
    · rfl
    · cases s with
      | nil => simp [hr]
      | cons b1 s =>
        simp only [List.cons_append]
        split
        · rfl
        · split
          · rfl
          · cases s with
            | nil => simp [hc]
            | cons b2 s =>
              simp only [List.cons_append]
              split
              · rfl
              · split
                · rfl
                · cases s with
                  | nil => simp [hc]
                  | cons b3 s => simp only [List.cons_append]

theorem decodeLoop_fuel : ∀ (n m : Nat) (s : List Nat), s.length ≤ n → s.length ≤ m →
    decodeLoop n s = decodeLoop m s := by
  intro n
  induction n with
  | zero =>
    intro m s hn _
    cases s with
    | nil => cases m <;> simp [decodeLoop]
    | cons b s => simp at hn
  | succ n ih =>
    intro m s hn hm
    cases s with
    | nil => cases m <;> simp [decodeLoop]
    | cons b s =>
      cases m with
      | zero => simp at hm
      | succ m =>
        simp only [decodeLoop]
        congr 1
        have := decodeRune_len b s
        simp only [List.length_cons] at hn hm
        apply ih <;> simp only [List.length_drop, List.length_cons] <;> omega

theorem stringRunes_cons (b : Nat) (s : List Nat) :
    stringRunes (b :: s) =
      (decodeRune (b :: s)).1 :: stringRunes ((b :: s).drop (decodeRune (b :: s)).2) := by
  unfold stringRunes
  rw [List.length_cons]
  simp only [decodeLoop]
  congr 1
  have := decodeRune_len b s
  apply decodeLoop_fuel <;> simp only [List.length_drop, List.length_cons] <;> omega

theorem stringRunes_ascii (c : Nat) (hc : c < 0x80) (t : List Nat) :
    stringRunes (c :: t) = (c : Int) :: stringRunes t := by
  rw [stringRunes_cons]
  have : decodeRune (c :: t) = ((c : Int), 1) := by simp [decodeRune, hc]
  rw [this]
  simp

theorem stringRunes_split (n : Nat) : ∀ (s : List Nat), s.length ≤ n → ∀ (t : List Nat) (c : Nat), c < 0x80 →
    stringRunes (s ++ c :: t) = stringRunes s ++ (c : Int) :: stringRunes t := by
  induction n with
  | zero =>
    intro s hs t c hc
    cases s with
    | nil => simp only [List.nil_append]; rw [stringRunes_ascii c hc]; rfl
    | cons b s => simp at hs
  | succ n ih =>
    intro s hs t c hc
    cases s with
    | nil => simp only [List.nil_append]; rw [stringRunes_ascii c hc]; rfl
    | cons b s =>
      have hl := decodeRune_len b s
      rw [List.cons_append, stringRunes_cons, ← List.cons_append, decodeRune_before_ascii b s t c hc,
        stringRunes_cons b s, List.drop_append_of_le_length (by simp; omega), List.cons_append]
      congr 1
      apply ih _ _ t c hc
      simp only [List.length_cons] at hs
      simp only [List.length_drop, List.length_cons]; omega

/-- An ASCII byte cuts a string into two that are decoded separately. -/
theorem stringRunes_append_ascii (s t : List Nat) (c : Nat) (hc : c < 0x80) :
    stringRunes (s ++ c :: t) = stringRunes s ++ (c : Int) :: stringRunes t :=
  stringRunes_split s.length s (Nat.le_refl _) t c hc

/-! ## Words of a line cut at a space -/

theorem fieldsRef_snoc (f : Rune → Bool) (c : Rune) (hc : f c = true) (b : List Rune) :
    ∀ (a cur : List Rune), fieldsRef f cur (a ++ c :: b) = fieldsRef f cur a ++ fieldsRef f [] b := by
  intro a
  induction a with
  | nil =>
    intro cur
    by_cases h : cur = [] <;> simp [fieldsRef, h, hc]
  | cons r a ih =>
    intro cur
    simp only [List.cons_append, fieldsRef]
    split
    · split
      · exact ih _
      · rw [ih]; rfl
    · exact ih _

theorem words_split (a b : List Rune) (c : Rune) (hc : isSpace c = true) :
    words (a ++ c :: b) = words a ++ words b := by
  have e : ∀ l, words l = fieldsRef isSpace [] l := by
    intro l; rw [fieldsRef_splitOnP]; rfl
  rw [e, e, e, fieldsRef_snoc isSpace c hc]

theorem words_plain (a : List Rune) (h : ∀ r ∈ a, isSpace r = false) : words a = if a = [] then [] else [a] := by
  have e : ∀ l, words l = fieldsRef isSpace [] l := by
    intro l; rw [fieldsRef_splitOnP]; rfl
  have gen : ∀ (a cur : List Rune), (∀ r ∈ a, isSpace r = false) →
      fieldsRef isSpace cur a = if cur ++ a = [] then [] else [cur ++ a] := by
    intro a
    induction a with
    | nil => intro cur _; by_cases h : cur = [] <;> simp [fieldsRef, h]
    | cons r a ih =>
      intro cur h
      simp only [fieldsRef]
      rw [h r (by simp)]
      have := ih (cur ++ [r]) (fun x hx => h x (by simp [hx]))
      simpa using this
  rw [e, gen a [] h]; simp

/-! ## The check -/

/-- Checks every line of a piece: `q` gets the bytes of a line, in reverse. -/
def linesOk (q : List Nat → Bool) : List Nat → List Nat → Bool
  | [], cur => match cur with
    | [] => true
    | _ :: _ => false
  | b :: bs, cur => bif Nat.beq b 10 then q cur && linesOk q bs [] else linesOk q bs (b :: cur)

/-- Checks every word of a line given in reverse: `q` gets the bytes of the word. -/
def wordsOk (q : List Nat → Bool) : List Nat → List Nat → Bool
  | [], cur => match cur with
    | [] => true
    | _ :: _ => q cur
  | b :: bs, cur => bif Nat.beq b 32 then
      (match cur with
        | [] => wordsOk q bs []
        | _ :: _ => q cur && wordsOk q bs [])
    else wordsOk q bs (b :: cur)

/-- Reads a pattern, checks that it is made of separate digits and of letters of the languages of the
package; `k` gets its letters and its values, in reverse. -/
def patternOk (k : List Nat → List Nat → Bool) : List Nat → List Nat → List Nat → Bool → Bool
  | [], ls, vs, _ => k ls vs
  | b :: bs, ls, vs, wd =>
    bif Nat.ble 128 b then
      match bs with
      | [] => false
      | c :: bs =>
        bif Nat.ble 194 b && (Nat.ble b 223 && (Nat.ble 128 c && Nat.ble c 191)) then
          (bif Nat.ble 223 ((b - 192) * 64 + (c - 128)) && Nat.ble ((b - 192) * 64 + (c - 128)) 255 ||
              Nat.beq ((b - 192) * 64 + (c - 128)) 339 then
            patternOk k bs (((b - 192) * 64 + (c - 128)) :: ls) (bif wd then vs else 0 :: vs) false
          else false)
        else false
    else bif Nat.ble 97 b then
      (bif Nat.ble b 122 then patternOk k bs (b :: ls) (bif wd then vs else 0 :: vs) false else false)
    else bif Nat.ble 48 b then
      (bif Nat.ble b 57 then (bif wd then false else patternOk k bs ls ((b - 48) :: vs) true) else false)
    else bif Nat.beq b 46 || Nat.beq b 39 then
      patternOk k bs (b :: ls) (bif wd then vs else 0 :: vs) false
    else false

/-- The check of a piece of patterns. -/
def pieceOk (k : List Nat → List Nat → Bool) (c : Nat × Nat) : Bool :=
  Nat.ble c.1 65000 && linesOk (fun l => wordsOk (fun w => patternOk k w [] [] false) l []) (pieceBytes c) []

/-! ## Soundness -/

theorem unpack_length : ∀ (k n : Nat) (acc : List Nat), (unpack k n acc).length = k + acc.length := by
  intro k
  induction k with
  | zero => intro n acc; simp [unpack]
  | succ k ih => intro n acc; rw [unpack, ih]; simp; omega

/-- The lines of a piece. -/
def cutLines : List Nat → List Nat → List (List Nat)
  | [], _ => []
  | b :: bs, cur => bif Nat.beq b 10 then cur.reverse :: cutLines bs [] else cutLines bs (b :: cur)

theorem linesOk_sound (q : List Nat → Bool) : ∀ (bs cur : List Nat), 10 ∉ cur → linesOk q bs cur = true →
    cur.reverse ++ bs = (cutLines bs cur).flatMap (fun l => l ++ [10]) ∧
      ∀ l ∈ cutLines bs cur, 10 ∉ l ∧ q l.reverse = true := by
  intro bs
  induction bs with
  | nil =>
    intro cur _ h
    cases cur with
    | nil => simp [cutLines]
    | cons c cur => simp [linesOk] at h
  | cons b bs ih =>
    intro cur hc h
    simp only [linesOk] at h
    by_cases hb : b = 10
    · subst hb
      have hbeq : Nat.beq 10 10 = true := rfl
      rw [hbeq, cond_true, Bool.and_eq_true] at h
      obtain ⟨h1, h2⟩ := ih [] (by simp) h.2
      simp only [cutLines]
      rw [hbeq, cond_true]
      refine ⟨?_, ?_⟩
      · simp only [List.reverse_nil, List.nil_append] at h1
        conv => lhs; rw [h1]
        simp
      · intro l hl
        rcases List.mem_cons.mp hl with rfl | hl
        · exact ⟨by simpa using hc, by simpa using h.1⟩
        · exact h2 l hl
    · have hbeq : Nat.beq b 10 = false := by
        rw [← Bool.not_eq_true, Nat.beq_eq]; exact hb
      rw [hbeq, cond_false] at h
      obtain ⟨h1, h2⟩ := ih (b :: cur) (by simp; exact ⟨fun h => hb h.symm, hc⟩) h
      simp only [cutLines]
      rw [hbeq, cond_false]
      exact ⟨by simpa using h1, h2⟩

theorem wordsOk_sound (q : List Nat → Bool)
    (hq : ∀ t, q t = true → ∀ r ∈ stringRunes t, PatternRune r) :
    ∀ (bs cur : List Nat), wordsOk q bs cur = true →
      (∀ r ∈ stringRunes (bs.reverse ++ cur), PatternRune r ∨ r = 0x20) ∧
      ∀ w ∈ words (stringRunes (bs.reverse ++ cur)), ∃ t, w = stringRunes t ∧ q t = true := by
  have hsp : ∀ r, PatternRune r → isSpace r = false := by
    intro r h
    cases hs : isSpace r with
    | false => rfl
    | true =>
      exfalso
      simp [isSpace] at hs
      unfold PatternRune at h
      omega
  have hw : ∀ t, q t = true → t ≠ [] → ∀ w ∈ words (stringRunes t), ∃ t, w = stringRunes t ∧ q t = true := by
    intro t ht hne w hw
    rw [words_plain _ (fun r hr => hsp r (hq t ht r hr))] at hw
    split at hw
    · simp at hw
    · simp at hw; exact ⟨t, hw, ht⟩
  have hnil : stringRunes [] = [] := rfl
  have hwnil : words [] = [] := by rw [words_plain _ (by simp)]; simp
  intro bs
  induction bs with
  | nil =>
    intro cur h
    cases cur with
    | nil => simp [hnil, hwnil]
    | cons c cur =>
      simp only [wordsOk] at h
      simp only [List.reverse_nil, List.nil_append]
      exact ⟨fun r hr => Or.inl (hq _ h r hr), hw _ h (by simp)⟩
  | cons b bs ih =>
    intro cur h
    simp only [wordsOk] at h
    by_cases hb : b = 32
    · subst hb
      have hbeq : Nat.beq 32 32 = true := rfl
      rw [hbeq, cond_true] at h
      have e : (32 :: bs).reverse ++ cur = bs.reverse ++ 32 :: cur := by simp
      rw [e, stringRunes_append_ascii _ _ 32 (by omega), words_split _ _ _ (by decide)]
      cases cur with
      | nil =>
        have := ih [] h
        simp only [List.append_nil] at this
        rw [hnil, hwnil]
        simp only [List.append_nil]
        refine ⟨fun r hr => ?_, this.2⟩
        rcases List.mem_append.mp hr with hr | hr
        · exact this.1 r hr
        · right; simpa using hr
      | cons c cur =>
        simp only [Bool.and_eq_true] at h
        have := ih [] h.2
        simp only [List.append_nil] at this
        refine ⟨fun r hr => ?_, fun w hw' => ?_⟩
        · rcases List.mem_append.mp hr with hr | hr
          · exact this.1 r hr
          · rcases List.mem_cons.mp hr with hr | hr
            · right; simpa using hr
            · exact Or.inl (hq _ h.1 r hr)
        · rcases List.mem_append.mp hw' with hw' | hw'
          · exact this.2 w hw'
          · exact hw _ h.1 (by simp) w hw'
    · have hbeq : Nat.beq b 32 = false := by
        rw [← Bool.not_eq_true, Nat.beq_eq]; exact hb
      rw [hbeq, cond_false] at h
      have := ih (b :: cur) h
      simpa using this

/-- Natural numbers as integers. -/
def toInts (l : List Nat) : List Int := l.map (fun n : Nat => (n : Int))

theorem decodeRune_two (b c : Nat) (s : List Nat) (h1 : 194 ≤ b) (h2 : b ≤ 223) (h3 : 128 ≤ c) (h4 : c ≤ 191) :
    decodeRune (b :: c :: s) = ((((b - 192) * 64 + (c - 128) : Nat) : Int), 2) := by
  have ha : acceptRange b = (0x80, 0xBF) := by
    unfold acceptRange
    simp
    repeat' split
    all_goals first | rfl | omega
  unfold decodeRune
  simp only [ha]
  rw [if_neg (by omega), if_neg (by simp; omega), if_neg (by simp; omega), if_pos (by omega)]
  rw [and31, and63, bits2]
  have : b % 32 * 64 + c % 64 = (b - 192) * 64 + (c - 128) := by omega
  rw [this]

theorem patternOk_sound (k : List Nat → List Nat → Bool) : ∀ (n : Nat) (bs ls vs : List Nat) (wd : Bool),
    bs.length ≤ n → patternOk k bs ls vs wd = true →
    ∃ ls' vs', k ls' vs' = true ∧ (∀ r ∈ stringRunes bs, PatternRune r) ∧
      (vs.length = ls.length + wd.toNat → vs'.length ≤ ls'.length + 1) ∧
      ∀ env, UsualRunes env →
        readPatternLoop env (stringRunes bs) wd (toInts ls.reverse) (toInts vs.reverse) =
          (toInts ls'.reverse, toInts vs'.reverse) := by
  have hle : ∀ a b : Nat, Nat.ble a b = true ↔ a ≤ b := fun a b => by rw [Nat.ble_eq]
  have hnle : ∀ a b : Nat, Nat.ble a b = false ↔ b < a := fun a b => by
    rw [← Bool.not_eq_true, Nat.ble_eq]; omega
  intro n
  induction n with
  | zero =>
    intro bs ls vs wd hn h
    have : bs = [] := List.length_eq_zero_iff.mp (by omega)
    subst this
    refine ⟨ls, vs, h, by simp [stringRunes, decodeLoop], ?_, fun env _ => by
      simp [stringRunes, decodeLoop, readPatternLoop]⟩
    intro hl; cases wd <;> simp at hl <;> omega
  | succ n ih =>
    intro bs ls vs wd hn h
    cases bs with
    | nil =>
      refine ⟨ls, vs, h, by simp [stringRunes, decodeLoop], ?_, fun env _ => by
        simp [stringRunes, decodeLoop, readPatternLoop]⟩
      intro hl; cases wd <;> simp at hl <;> omega
    | cons b bs =>
      simp only [List.length_cons] at hn
      -- a letter
      have letter : ∀ (x : Nat) (bs' : List Nat), bs'.length ≤ n → stringRunes (b :: bs) = (x : Int) :: stringRunes bs' →
          PatternRune (x : Int) → ¬ (0x30 ≤ (x : Int) ∧ (x : Int) ≤ 0x39) →
          patternOk k bs' (x :: ls) (bif wd then vs else 0 :: vs) false = true →
          ∃ ls' vs', k ls' vs' = true ∧ (∀ r ∈ stringRunes (b :: bs), PatternRune r) ∧
            (vs.length = ls.length + wd.toNat → vs'.length ≤ ls'.length + 1) ∧
            ∀ env, UsualRunes env →
              readPatternLoop env (stringRunes (b :: bs)) wd (toInts ls.reverse) (toInts vs.reverse) =
                (toInts ls'.reverse, toInts vs'.reverse) := by
        intro x bs' hbs hrun hx hd hp
        obtain ⟨ls', vs', h1, h2, h3, h4⟩ := ih bs' _ _ _ hbs hp
        refine ⟨ls', vs', h1, ?_, ?_, ?_⟩
        · intro r hr
          rw [hrun] at hr
          rcases List.mem_cons.mp hr with rfl | hr
          · exact hx
          · exact h2 r hr
        · intro hl
          apply h3
          cases wd <;> simp at hl ⊢ <;> omega
        · intro env he
          have := he x (Or.inl hx)
          rw [hrun]
          simp only [readPatternLoop]
          rw [this.1, this.2]
          rw [if_neg (by simpa using hd)]
          have h4' := h4 env he
          cases wd with
          | true => simpa [toInts] using h4'
          | false => simpa [toInts] using h4'
      unfold patternOk at h
      cases c1 : Nat.ble 128 b with
      | true =>
        rw [c1, cond_true] at h
        cases bs with
        | nil => simp at h
        | cons c bs =>
          simp only at h
          cases c2 : (Nat.ble 194 b && (Nat.ble b 223 && (Nat.ble 128 c && Nat.ble c 191))) with
          | false => rw [c2, cond_false] at h; cases h
          | true =>
            rw [c2, cond_true] at h
            simp only [Bool.and_eq_true, hle] at c2
            cases c3 : (Nat.ble 223 ((b - 192) * 64 + (c - 128)) && Nat.ble ((b - 192) * 64 + (c - 128)) 255 ||
              Nat.beq ((b - 192) * 64 + (c - 128)) 339) with
            | false => rw [c3, cond_false] at h; cases h
            | true =>
              rw [c3, cond_true] at h
              simp only [Bool.or_eq_true, Bool.and_eq_true, hle, Nat.beq_eq] at c3
              refine letter ((b - 192) * 64 + (c - 128)) bs (by simp at hn; omega) ?_ ?_ ?_ h
              · rw [stringRunes_cons, decodeRune_two b c bs c2.1 c2.2.1 c2.2.2.1 c2.2.2.2]
                rfl
              · unfold PatternRune; omega
              · omega
      | false =>
        rw [c1, cond_false] at h
        rw [hnle] at c1
        have hrun := stringRunes_ascii b (by omega) bs
        cases c2 : Nat.ble 97 b with
        | true =>
          rw [c2, cond_true] at h
          rw [hle] at c2
          cases c3 : Nat.ble b 122 with
          | false => rw [c3, cond_false] at h; cases h
          | true =>
            rw [c3, cond_true] at h
            rw [hle] at c3
            exact letter b bs (by omega) hrun (by unfold PatternRune; omega) (by omega) h
        | false =>
          rw [c2, cond_false] at h
          rw [hnle] at c2
          cases c3 : Nat.ble 48 b with
          | true =>
            rw [c3, cond_true] at h
            rw [hle] at c3
            cases c4 : Nat.ble b 57 with
            | false => rw [c4, cond_false] at h; cases h
            | true =>
              rw [c4, cond_true] at h
              rw [hle] at c4
              cases wd with
              | true => simp at h
              | false =>
                rw [cond_false] at h
                obtain ⟨ls', vs', h1, h2, h3, h4⟩ := ih bs _ _ _ (by omega) h
                have hx : PatternRune (b : Int) := by unfold PatternRune; omega
                refine ⟨ls', vs', h1, ?_, ?_, ?_⟩
                · intro r hr
                  rw [hrun] at hr
                  rcases List.mem_cons.mp hr with rfl | hr
                  · exact hx
                  · exact h2 r hr
                · intro hl
                  apply h3
                  simp at hl ⊢; omega
                · intro env he
                  have := he b (Or.inl hx)
                  rw [hrun]
                  simp only [readPatternLoop]
                  rw [this.1]
                  rw [if_pos (by simp; omega), atoiRune_eq]
                  have hdv : digitVal (b : Int) = ((b - 48 : Nat) : Int) := by
                    unfold digitVal
                    rw [if_pos (by omega)]; omega
                  rw [hdv]
                  simpa [toInts] using h4 env he
          | false =>
            rw [c3, cond_false] at h
            rw [hnle] at c3
            cases c4 : (Nat.beq b 46 || Nat.beq b 39) with
            | false => rw [c4, cond_false] at h; cases h
            | true =>
              rw [c4, cond_true] at h
              simp only [Bool.or_eq_true, Nat.beq_eq] at c4
              exact letter b bs (by omega) hrun (by unfold PatternRune; omega) (by omega) h

/-- What the check says of a line. -/
structure LineOk (k : List Nat → List Nat → Bool) (l : List Nat) : Prop where
  noLF : 10 ∉ l
  runes : ∀ r ∈ stringRunes l, PatternRune r ∨ r = 0x20
  entries : ∀ w ∈ words (stringRunes l), ∃ ls vs, k ls vs = true ∧ vs.length ≤ ls.length + 1 ∧
    ∀ env, UsualRunes env → readPattern env w = (toInts ls.reverse, toInts vs.reverse)

theorem pieceOk_sound (k : List Nat → List Nat → Bool) (c : Nat × Nat) (h : pieceOk k c = true) :
    pieceBytes c = (cutLines (pieceBytes c) []).flatMap (fun l => l ++ [10]) ∧
      ∀ l ∈ cutLines (pieceBytes c) [], LineOk k l ∧ l.length ≤ 65000 := by
  unfold pieceOk at h
  rw [Bool.and_eq_true, Nat.ble_eq] at h
  obtain ⟨h1, h2⟩ := linesOk_sound _ _ _ (by simp) h.2
  simp only [List.reverse_nil, List.nil_append] at h1
  refine ⟨h1, fun l hl => ?_⟩
  obtain ⟨h3, h4⟩ := h2 l hl
  have hw := wordsOk_sound (fun w => patternOk k w [] [] false)
    (fun t ht => (patternOk_sound k t.length t [] [] false (Nat.le_refl _) ht).choose_spec.choose_spec.2.1)
    l.reverse [] h4
  simp only [List.reverse_reverse, List.append_nil] at hw
  refine ⟨⟨h3, hw.1, fun w hwm => ?_⟩, ?_⟩
  · obtain ⟨t, rfl, ht⟩ := hw.2 w hwm
    obtain ⟨ls', vs', h5, _, h6, h7⟩ := patternOk_sound k t.length t [] [] false (Nat.le_refl _) ht
    exact ⟨ls', vs', h5, h6 (by simp), fun env he => h7 env he⟩
  · have hlen : (pieceBytes c).length = c.1 := by simp [pieceBytes, unpack_length]
    have : l.length ≤ ((cutLines (pieceBytes c) []).flatMap (fun l => l ++ [10])).length := by
      obtain ⟨a, b, hab⟩ := List.append_of_mem hl
      rw [hab]
      simp; omega
    rw [← h1, hlen] at this
    omega

/-- The lines of the patterns of a file. -/
def bodyLines (f : List (Nat × Nat)) : List (List Nat) := f.flatMap (fun c => cutLines (pieceBytes c) [])

theorem bodyOk_sound (k : List Nat → List Nat → Bool) : ∀ (f : List (Nat × Nat)), f.all (pieceOk k) = true →
    packedBytes f = (bodyLines f).flatMap (fun l => l ++ [10]) ∧
      ∀ l ∈ bodyLines f, LineOk k l ∧ l.length ≤ 65000 := by
  intro f
  induction f with
  | nil => intro _; exact ⟨rfl, by simp [bodyLines]⟩
  | cons c f ih =>
    intro h
    rw [List.all_cons, Bool.and_eq_true] at h
    obtain ⟨h1, h2⟩ := pieceOk_sound k c h.1
    obtain ⟨h3, h4⟩ := ih h.2
    refine ⟨?_, ?_⟩
    · simp only [packedBytes, bodyLines, List.flatMap_cons, List.flatMap_append] at h3 ⊢
      rw [h3, ← h1]
    · intro l hl
      simp only [bodyLines, List.flatMap_cons] at hl h4
      rcases List.mem_append.mp hl with hl | hl
      · exact h2 l hl
      · exact h4 l hl

/-! ## A file: what comes before the patterns, the patterns, what comes after -/

/-- Lines that end with a line feed. -/
theorem fileOf_lines : ∀ (ls : List (List Nat)), (∀ l ∈ ls, 10 ∉ l ∧ l.getLast? ≠ some 0x0D) →
    FileOf (ls.flatMap (fun l => l ++ [10])) ls := by
  intro ls
  induction ls with
  | nil => intro _; exact .nil
  | cons l ls ih =>
    intro h
    have := h l (by simp)
    have e : (l :: ls).flatMap (fun l => l ++ [10]) = l ++ 10 :: ls.flatMap (fun l => l ++ [10]) := by simp
    rw [e]
    exact .lf l this.1 this.2 (ih fun x hx => h x (by simp [hx]))

/-- What is checked of the lines around the patterns. -/
def frameOk (c : Nat × Nat) : Bool :=
  Nat.ble c.1 65000 && linesOk (fun l => l.head? != some 13) (pieceBytes c) []

theorem frameOk_sound (c : Nat × Nat) (h : frameOk c = true) :
    pieceBytes c = (cutLines (pieceBytes c) []).flatMap (fun l => l ++ [10]) ∧
      ∀ l ∈ cutLines (pieceBytes c) [], 10 ∉ l ∧ l.getLast? ≠ some 0x0D ∧ l.length ≤ 65000 := by
  unfold frameOk at h
  rw [Bool.and_eq_true, Nat.ble_eq] at h
  obtain ⟨h1, h2⟩ := linesOk_sound _ _ _ (by simp) h.2
  simp only [List.reverse_nil, List.nil_append] at h1
  refine ⟨h1, fun l hl => ?_⟩
  obtain ⟨h3, h4⟩ := h2 l hl
  refine ⟨h3, ?_, ?_⟩
  · simpa using h4
  · have hlen : (pieceBytes c).length = c.1 := by simp [pieceBytes, unpack_length]
    have : l.length ≤ ((cutLines (pieceBytes c) []).flatMap (fun l => l ++ [10])).length := by
      obtain ⟨a, b, hab⟩ := List.append_of_mem hl
      rw [hab]
      simp; omega
    rw [← h1, hlen] at this
    omega

theorem lineOk_facts {k : List Nat → List Nat → Bool} {l : List Nat} (h : LineOk k l) :
    l.getLast? ≠ some 0x0D ∧ isMarker (stringRunes l) = false ∧
      (isComment (stringRunes l) = true → stringRunes l = []) := by
  refine ⟨?_, ?_, ?_⟩
  · intro hl
    have hm : l = l.dropLast ++ [0x0D] := by
      rw [List.getLast?_eq_some_iff] at hl
      obtain ⟨x, rfl⟩ := hl
      simp
    have := h.runes 0x0D (by rw [hm, stringRunes_append_ascii _ _ _ (by omega)]; simp)
    unfold PatternRune at this
    omega
  · cases hm : isMarker (stringRunes l) with
    | false => rfl
    | true =>
      exfalso
      cases hs : stringRunes l with
      | nil => rw [hs] at hm; exact absurd hm (by decide)
      | cons r rs =>
        rw [hs] at hm
        have h1 := isMarker_comment _ hm
        have h2 := h.runes r (by rw [hs]; simp)
        simp [isComment] at h1
        unfold PatternRune at h2
        omega
  · intro hc
    cases hs : stringRunes l with
    | nil => rfl
    | cons r rs =>
      exfalso
      have h2 := h.runes r (by rw [hs]; simp)
      simp [hs, isComment] at hc
      unfold PatternRune at h2
      omega

/-- The dictionary of a file made of comments, patterns, and what follows the patterns. -/
theorem packed_file (k : List Nat → List Nat → Bool) (head tail : Nat × Nat) (body : List (Nat × Nat))
    (hb : body.all (pieceOk k) = true) (hh : frameOk head = true) (ht : frameOk tail = true)
    (hhc : ∀ l ∈ cutLines (pieceBytes head) [], isMarker (stringRunes l) = false ∧
      isComment (stringRunes l) = true)
    (htc : ∀ l ∈ ((cutLines (pieceBytes tail) []).map stringRunes).takeWhile (fun l => !isMarker l),
      isComment l = true) (env : Env) (id : List Rune) :
    FileOf (packedBytes (head :: (body ++ [tail])))
      (cutLines (pieceBytes head) [] ++ (bodyLines body ++ cutLines (pieceBytes tail) [])) ∧
    ∃ dict, loadFile env id (packedBytes (head :: (body ++ [tail]))) = .ok dict ∧
      (∀ key, dict.patterns.get key =
        lastDef (((bodyLines body).map stringRunes).flatMap words |>.map (readPattern env)) key) ∧
      (∀ key, dict.exceptions.get key =
        lastDef (exceptionEntries env ((cutLines (pieceBytes tail) []).map stringRunes)) key) := by
  obtain ⟨b1, b2⟩ := bodyOk_sound k body hb
  obtain ⟨h1, h2⟩ := frameOk_sound head hh
  obtain ⟨t1, t2⟩ := frameOk_sound tail ht
  generalize cutLines (pieceBytes head) [] = H at h1 h2 hhc ⊢
  generalize cutLines (pieceBytes tail) [] = T at t1 t2 htc ⊢
  generalize bodyLines body = B at b1 b2 ⊢
  have hall : ∀ l ∈ H ++ (B ++ T), 10 ∉ l ∧ l.getLast? ≠ some 0x0D ∧ l.length ≤ 65000 := by
    intro l hl
    rcases List.mem_append.mp hl with hl | hl
    · exact h2 l hl
    · rcases List.mem_append.mp hl with hl | hl
      · exact ⟨(b2 l hl).1.noLF, (lineOk_facts (b2 l hl).1).1, (b2 l hl).2⟩
      · exact t2 l hl
  have hfile : FileOf (packedBytes (head :: (body ++ [tail]))) (H ++ (B ++ T)) := by
    have e : packedBytes (head :: (body ++ [tail])) = (H ++ (B ++ T)).flatMap (fun l => l ++ [10]) := by
      simp only [packedBytes, List.flatMap_cons, List.flatMap_append, List.flatMap_nil, List.append_nil]
        at b1 ⊢
      rw [h1, b1, t1]
    rw [e]
    exact fileOf_lines _ fun l hl => ⟨(hall l hl).1, (hall l hl).2.1⟩
  refine ⟨hfile, ?_⟩
  rw [loadFile_lines env id _ _ hfile fun l hl => by have := (hall l hl).2.2; omega]
  obtain ⟨dict, d1, d2, d3⟩ := loadPatterns_spec env id ((H ++ (B ++ T)).map stringRunes)
  refine ⟨dict, d1, ?_, ?_⟩
  · intro key
    rw [d2]
    congr 1
    unfold patternEntries
    simp only [List.map_append]
    rw [List.takeWhile_append_of_pos (by
      intro l hl
      obtain ⟨x, hx, rfl⟩ := List.mem_map.mp hl
      simp [(hhc x hx).1])]
    rw [List.takeWhile_append_of_pos (by
      intro l hl
      obtain ⟨x, hx, rfl⟩ := List.mem_map.mp hl
      simp [(lineOk_facts (b2 x hx).1).2.1])]
    rw [List.filter_append, List.filter_append]
    have eH : (H.map stringRunes).filter (fun l => !isComment l) = [] := by
      rw [List.filter_eq_nil_iff]
      intro l hl
      obtain ⟨x, hx, rfl⟩ := List.mem_map.mp hl
      simp [(hhc x hx).2]
    have eT : ((T.map stringRunes).takeWhile (fun l => !isMarker l)).filter (fun l => !isComment l) = [] := by
      rw [List.filter_eq_nil_iff]
      intro l hl
      simp [htc l hl]
    have eB : ∀ B : List (List Nat), (∀ l ∈ B, LineOk k l) →
        ((B.map stringRunes).filter (fun l => !isComment l)).flatMap words =
          (B.map stringRunes).flatMap words := by
      intro B
      induction B with
      | nil => intro _; rfl
      | cons l B ih =>
        intro h
        have ih' := ih fun x hx => h x (by simp [hx])
        simp only [List.map_cons, List.flatMap_cons]
        cases hc : isComment (stringRunes l) with
        | false => simp [hc, ih']
        | true =>
          have := (lineOk_facts (h l (by simp))).2.2 hc
          have hw : words (stringRunes l) = [] := by rw [this, words_plain _ (by simp)]; simp
          simp [hc, ih', hw]
    rw [eH, eT, List.nil_append, List.append_nil, eB B fun l hl => (b2 l hl).1]
    apply List.map_congr_left
    intro p _
    rw [readPattern_spec]
  · intro key
    rw [d3]
    congr 1
    unfold exceptionEntries
    simp only [List.map_append]
    rw [List.dropWhile_append_of_pos (by
      intro l hl
      obtain ⟨x, hx, rfl⟩ := List.mem_map.mp hl
      simp [(hhc x hx).1])]
    rw [List.dropWhile_append_of_pos (by
      intro l hl
      obtain ⟨x, hx, rfl⟩ := List.mem_map.mp hl
      simp [(lineOk_facts (b2 x hx).1).2.1])]

end Verif.Proofs
