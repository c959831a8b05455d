import Verif.Props.Fit
import Verif.Props.RunesIO
import Verif.Model.Strings

/-! # C73–C75: options of a line breaker, strings, and texts -/

set_option linter.unusedSectionVars false

namespace Verif.Props
open Verif.Go Verif.Model Verif.Model.LB Verif.Spec Verif.Spec.Ansi Verif.Spec.LB Verif.Proofs Verif.Proofs.LB

/-! ## C73 -/

section
variable {F : Type} [Arith F]

/-- The last value given by the options for one setting. -/
def lastOpt {α : Type} (pick : Opt F → Option α) (dflt : α) (opts : List (Opt F)) : α :=
  ((opts.filterMap pick).getLast?).getD dflt

omit [Arith F] in
theorem lastOpt_append {α : Type} (pick : Opt F → Option α) (dflt : α) (opts : List (Opt F)) (o : Opt F) :
    lastOpt pick dflt (opts ++ [o]) = (pick o).getD (lastOpt pick dflt opts) := by
  unfold lastOpt
  rw [List.filterMap_append]
  cases h : pick o <;> simp [h]

theorem options_from (opts : List (Opt F)) (o : Options F) :
    (opts.foldl Opt.apply o).tolerance = lastOpt (fun | .tolerance x => some x | _ => none) o.tolerance opts ∧
    (opts.foldl Opt.apply o).scaleFactor = lastOpt (fun | .scaleFactor x => some x | _ => none) o.scaleFactor opts ∧
    (opts.foldl Opt.apply o).wordBreak =
      lastOpt (fun | .wordBreak b => some b | .hyphenator _ => some true | _ => none) o.wordBreak opts ∧
    (opts.foldl Opt.apply o).measurer = lastOpt (fun | .measurer f => some f | _ => none) o.measurer opts ∧
    (opts.foldl Opt.apply o).hyphenator = lastOpt (fun | .hyphenator f => some f | _ => none) o.hyphenator opts ∧
    (opts.foldl Opt.apply o).punctuator = lastOpt (fun | .punctuator f => some f | _ => none) o.punctuator opts ∧
    (opts.foldl Opt.apply o).hyphenPenalty = lastOpt (fun | .hyphenPenalty x => some x | _ => none) o.hyphenPenalty opts ∧
    (opts.foldl Opt.apply o).demeritsFlagged = lastOpt (fun | .hyphenPenalty x => some x | _ => none) o.demeritsFlagged opts ∧
    (opts.foldl Opt.apply o).renderHyphens = lastOpt (fun | .renderHyphens b => some b | _ => none) o.renderHyphens opts := by
  generalize hr : opts.reverse = r
  have : opts = r.reverse := by rw [← hr, List.reverse_reverse]
  subst this
  clear hr
  induction r with
  | nil => exact ⟨rfl, rfl, rfl, rfl, rfl, rfl, rfl, rfl, rfl⟩
  | cons x r ih =>
    rw [List.reverse_cons]
    obtain ⟨h1, h2, h3, h4, h5, h6, h7, h8, h9⟩ := ih
    simp only [lastOpt_append, List.foldl_append, List.foldl_cons, List.foldl_nil]
    simp only [← h1, ← h2, ← h3, ← h4, ← h5, ← h6, ← h7, ← h8, ← h9]
    clear h1 h2 h3 h4 h5 h6 h7 h8 h9
    generalize r.reverse.foldl Opt.apply o = o'
    cases x <;> exact ⟨rfl, rfl, rfl, rfl, rfl, rfl, rfl, rfl, rfl⟩

theorem defaults_measurer : (defaults : Options F).measurer = defaultMeasurer := by
  unfold defaults; simp only

/-- **C73.** Each setting of a line breaker has the value of the last option given for it, and its default when there is
none. WithHyphenator counts as WithWordBreak(true), and the penalty of hyphens is also the one of consecutive
hyphens. -/
theorem C73_options_last_wins (opts : List (Opt F)) :
    (defaultOptions opts).tolerance = lastOpt (fun | .tolerance x => some x | _ => none) (Arith.tenths 86) opts ∧
    (defaultOptions opts).scaleFactor = lastOpt (fun | .scaleFactor x => some x | _ => none) (Arith.ofInt 1) opts ∧
    (defaultOptions opts).wordBreak =
      lastOpt (fun | .wordBreak b => some b | .hyphenator _ => some true | _ => none) true opts ∧
    (defaultOptions opts).measurer = lastOpt (fun | .measurer f => some f | _ => none) defaultMeasurer opts ∧
    (defaultOptions opts).hyphenator = lastOpt (fun | .hyphenator f => some f | _ => none) none opts ∧
    (defaultOptions opts).punctuator = lastOpt (fun | .punctuator f => some f | _ => none) none opts ∧
    (defaultOptions opts).hyphenPenalty = lastOpt (fun | .hyphenPenalty x => some x | _ => none) (Arith.ofInt 300) opts ∧
    (defaultOptions opts).demeritsFlagged = lastOpt (fun | .hyphenPenalty x => some x | _ => none) (Arith.ofInt 100) opts ∧
    (defaultOptions opts).renderHyphens = lastOpt (fun | .renderHyphens b => some b | _ => none) true opts := by
  have h := options_from opts defaults
  simp only [defaults_measurer] at h
  exact h

/-- An option that sets the looseness. -/
def isLooseness : Opt F → Bool
  | .looseness _ => true
  | _ => false

/-- **C73.** The looseness has no effect: a line breaker made without this option is the same. -/
theorem C73_looseness_ignored (env : Env) (dict : Dictionary) (opts : List (Opt F)) :
    new env dict opts = new env dict (opts.filter (fun o => !isLooseness o)) := by
  have h : ∀ o : Options F, opts.foldl Opt.apply o = (opts.filter (fun o => !isLooseness o)).foldl Opt.apply o := by
    induction opts with
    | nil => intro o; rfl
    | cons x xs ih => intro o; cases x <;> simp [isLooseness, Opt.apply, ih]
  unfold new defaultOptions
  rw [h]

/-- **C73.** A nil hyphenator stands for the default one, which divides words of at least four letters, and leaves two
letters on each side; a nil punctuator stands for the default one. -/
theorem C73_nil_is_default (env : Env) (dict : Dictionary) (opts : List (Opt F)) :
    new env dict (opts ++ [.hyphenator none]) =
      new env dict (opts ++ [.hyphenator (some (hyphenatorBreakWord env dict ⟨4, 2, 2⟩))]) ∧
    new env dict (opts ++ [.punctuator none]) =
      new env dict (opts ++ [.punctuator (some (punctuatorBreakWord env))]) := by
  have h4 := (fixed_options opts).2.2.2.2.2.1
  unfold defaultOptions at h4
  constructor
  · simp [new, defaultOptions, Opt.apply, HOptions.default, Options.scale, h4]
  · simp [new, defaultOptions, Opt.apply, Options.scale]

end

example : (defaultOptions [.tolerance 3, .wordBreak false, .tolerance (4 : Rat), .hyphenator (some fun t => .ok [t])]).tolerance = 4 ∧
    (defaultOptions [.tolerance 3, .wordBreak false, .tolerance (4 : Rat), .hyphenator (some fun t => .ok [t])]).wordBreak = true :=
  by simp [defaultOptions, Opt.apply]

/-! ## C74 -/

section
variable {F : Type} [Arith F] [Laws F] {rt : Runtime} {env : Env} {dict : Dictionary} {opts : List (Opt F)}
  {text : List Rune → Int} {n : Nat} {l l' : LineBreaker F} {tokens : List (List Rune)} {maxWidth : F} {W : Int}

/-- The runes of the lines. -/
theorem reflow_mem {g : List Rune} {atGap : List Rune → Prop} {inWord : Rune → List Rune → Prop} {s : List Ch}
    {lines : List (List Rune)} (h : Reflow g atGap inWord s lines) :
    ∀ line ∈ lines, ∀ r ∈ line, r ∈ g ∨ .rune r ∈ s ∨ (∃ e, r ∈ e ∧ (atGap e ∨ ∃ q, inWord q e)) := by
  have hch : ∀ p : List Ch, ∀ r ∈ chText g p, r ∈ g ∨ .rune r ∈ p := by
    intro p
    induction p with
    | nil => intro r hr; cases hr
    | cons c p ih =>
      intro r hr
      cases c with
      | rune q =>
        simp only [chText, List.mem_cons] at hr
        rcases hr with rfl | hr
        · exact Or.inr (by simp)
        · exact (ih r hr).imp id (fun h => by simp [h])
      | gap =>
        simp only [chText, List.mem_append] at hr
        rcases hr with hr | hr
        · exact Or.inl hr
        · exact (ih r hr).imp id (fun h => by simp [h])
  induction h with
  | last p =>
    intro line hl r hr
    rw [List.mem_singleton] at hl
    subst hl
    exact (hch p r hr).imp id Or.inl
  | gap p x hx _ ih =>
    intro line hl r hr
    rcases List.mem_cons.mp hl with rfl | hl
    · rcases List.mem_append.mp hr with hr | hr
      · exact (hch p r hr).imp id (fun h => Or.inl (by simp [h]))
      · exact Or.inr (Or.inr ⟨x, hr, Or.inl hx⟩)
    · exact (ih line hl r hr).imp id (Or.imp (fun h => by simp [h]) id)
  | inside p q q' x hx _ ih =>
    intro line hl r hr
    rcases List.mem_cons.mp hl with rfl | hl
    · rcases List.mem_append.mp hr with hr | hr
      · refine (hch _ r hr).imp id (fun h => Or.inl ?_)
        simp only [List.mem_append, List.mem_singleton] at h
        simp only [List.mem_append, List.mem_cons]; tauto
      · exact Or.inr (Or.inr ⟨x, hr, Or.inr ⟨q, hx⟩⟩)
    · refine (ih line hl r hr).imp id (Or.imp (fun h => ?_) id)
      simp only [List.mem_cons] at h
      simp only [List.mem_append, List.mem_cons]; tauto

theorem stringRunes_scalar (s : List Nat) : ∀ r ∈ stringRunes s, IsScalar r := by
  obtain ⟨items, hi⟩ := reads_exists s.length s (Nat.le_refl _)
  rw [stringRunes_reads hi]
  intro r hr
  rw [List.mem_map] at hr
  obtain ⟨o, ho, rfl⟩ := hr
  cases o with
  | none => decide
  | some r => exact reads_scalar hi r ho

theorem flatMap_scalar (rs : List Rune) (h : ∀ r ∈ rs, IsScalar r) : rs.flatMap encodeRune = utf8s rs := by
  induction rs with
  | nil => rfl
  | cons r rs ih =>
    rw [List.flatMap_cons, encodeRune_scalar (h r (by simp)), ih (fun r hr => h r (by simp [hr]))]
    rfl

/-- **C74.** Each line returned for some strings (UTF-8 or not) is the UTF-8 encoding of a text, and together the texts
are the words that were given, where what is not UTF-8 is replaced. -/
theorem C74_strings {words : List (List Nat)} {lines : List (List Nat)}
    (c : Call rt env dict opts text n l (words.map stringRunes) maxWidth W) (hW : 0 < W)
    (hne : ∀ w ∈ words, w ≠ []) (h : leftAlignStrings rt env l words maxWidth = .ok (some lines, l')) :
    ∃ texts : List (List Rune), lines = texts.map utf8s ∧ lines.map stringRunes = texts ∧
      (∀ t ∈ texts, ∀ r ∈ t, IsScalar r) ∧
      Reflow (List.replicate n 0x20) (fun e => e = [] ∨ e = [0x2D]) (fun _ e => e = [] ∨ e = [0x2D])
        (joined (words.map stringRunes)) texts := by
  unfold leftAlignStrings at h
  cases e : leftAlignUniform rt env l (words.map stringRunes) maxWidth with
  | error p => rw [e] at h; cases h
  | ok p =>
    rw [e] at h
    obtain ⟨r, l''⟩ := p
    cases r with
    | none => cases h
    | some texts =>
      have hne' : ∀ t ∈ words.map stringRunes, t ≠ [] := by
        intro t ht
        rw [List.mem_map] at ht
        obtain ⟨w, hw, rfl⟩ := ht
        obtain ⟨b, s, rfl⟩ := List.exists_cons_of_ne_nil (hne w hw)
        unfold stringRunes
        simp [decodeLoop]
      have hr := C50_text_kept c hW hne' e
      have hs : ∀ t ∈ texts, ∀ r ∈ t, IsScalar r := by
        intro t ht r hr'
        rcases reflow_mem hr t ht r hr' with h1 | h1 | ⟨x, hx, h1⟩
        · rw [List.eq_of_mem_replicate h1]; decide
        · obtain ⟨t, ht, hr⟩ := mem_joined _ r h1
          rw [List.mem_map] at ht
          obtain ⟨w, _, rfl⟩ := ht
          exact stringRunes_scalar w r hr
        · have : x = [] ∨ x = [0x2D] := by tauto
          rcases this with rfl | rfl
          · cases hx
          · rw [List.mem_singleton] at hx; subst hx; decide
      have hl : lines = texts.map utf8s := by
        have : lines = texts.map (fun line => writeRunesLoop line []) := by
          cases h; rfl
        rw [this]
        refine List.map_congr_left (fun t ht => ?_)
        rw [writeRunesLoop_eq, List.nil_append, flatMap_scalar t (hs t ht)]
      refine ⟨texts, hl, ?_, hs, hr⟩
      rw [hl, List.map_map]
      exact (List.map_congr_left (g := id) (fun t ht => stringRunes_utf8s t (hs t ht))).trans (List.map_id texts)

/-- **C74.** A call on the encodings of words is the call on the words. -/
theorem C74_encoded_words {words : List (List Rune)} (hs : ∀ w ∈ words, ∀ r ∈ w, IsScalar r) :
    leftAlignStrings rt env l (words.map utf8s) maxWidth =
      (leftAlignUniform rt env l words maxWidth).map (fun p =>
        (p.1.map (fun lines => lines.map (fun line => (line.map (fun r => encodeRune r)).flatten)), p.2)) := by
  unfold leftAlignStrings
  have e : (words.map utf8s).map stringRunes = words := by
    rw [List.map_map]
    exact (List.map_congr_left (g := id) (fun t ht => stringRunes_utf8s t (hs t ht))).trans (List.map_id words)
  rw [e]
  cases leftAlignUniform rt env l words maxWidth with
  | error p => rfl
  | ok p =>
    simp only [Except.map, bind, Except.bind, pure, Except.pure, writeRunesLoop_eq, List.nil_append, List.flatMap_def]

/-! ## C75 -/

theorem reflow_bodies {g : List Rune} (hg : ∀ r ∈ g, isSpace r = true) {atGap : List Rune → Prop}
    {inWord : Rune → List Rune → Prop} {s : List Ch} {lines : List (List Rune)} (h : Reflow g atGap inWord s lines) :
    ∃ bodies : List (List Rune), List.Forall₂ (fun line body => ∃ e, line = body ++ e ∧ (e = [] ∨ atGap e ∨ ∃ q, inWord q e)) lines bodies ∧
      bodies.flatten.filter (fun r => !isSpace r) = (chText [] s).filter (fun r => !isSpace r) := by
  have hch : ∀ p : List Ch, (chText g p).filter (fun r => !isSpace r) = (chText [] p).filter (fun r => !isSpace r) := by
    intro p
    induction p with
    | nil => rfl
    | cons c p ih =>
      cases c with
      | rune q => simp only [chText, List.filter_cons, ih]
      | gap =>
        simp only [chText, List.filter_append, ih, List.nil_append]
        rw [List.filter_eq_nil_iff.mpr (by intro r hr; simp [hg r hr]), List.nil_append]
  induction h with
  | last p => exact ⟨[chText g p], .cons ⟨[], by simp⟩ .nil, by simp [hch]⟩
  | gap p x hx _ ih =>
    obtain ⟨bs, h1, h2⟩ := ih
    refine ⟨chText g p :: bs, .cons ⟨x, rfl, Or.inr (Or.inl hx)⟩ h1, ?_⟩
    rw [List.flatten_cons, List.filter_append, h2, hch, chText_append, List.filter_append]
    rfl
  | inside p q q' x hx _ ih =>
    obtain ⟨bs, h1, h2⟩ := ih
    refine ⟨chText g (p ++ [.rune q]) :: bs, .cons ⟨x, rfl, Or.inr (Or.inr ⟨q, hx⟩)⟩ h1, ?_⟩
    rw [List.flatten_cons, List.filter_append, h2, hch, ← List.filter_append, ← chText_append]
    simp

theorem joined_text (ts : List (List Rune)) : chText [] (joined ts) = ts.flatten := by
  induction ts with
  | nil => rfl
  | cons t ts ih =>
    cases ts with
    | nil => simp [joined, chText_runes]
    | cons u us =>
      simp only [joined, chText_append, chText_runes, chText, ih, List.nil_append]
      rfl

/-- The words found by the tokenizer. -/
theorem tokenizer_words {input : List Rune} {tokens : List (List Rune)} (h : tokenizerBreakWord input = .ok tokens) :
    tokens.flatten = input.filter (fun r => !isSpace r) ∧ ∀ t ∈ tokens, t ≠ [] ∧ ∀ r ∈ t, isSpace r = false := by
  unfold tokenizerBreakWord at h
  rw [fieldsFunc_ref] at h
  cases h
  exact ⟨by simpa using fieldsRef_flatten isSpace input [] (by simp), fieldsRef_parts isSpace input [] (by simp)⟩

/-- **C75.** A text divided into words by the tokenizer, then set: without spaces, and without the hyphens added at the
ends of lines, the lines are the text without spaces. -/
theorem C75_content {input : List Rune} {lines : List (List Rune)}
    (c : Call rt env dict opts text n l tokens maxWidth W) (hW : 0 < W) (ht : tokenizerBreakWord input = .ok tokens)
    (h : leftAlignUniform rt env l tokens maxWidth = .ok (some lines, l')) :
    ∃ bodies : List (List Rune), List.Forall₂ (fun line body => line = body ∨ line = body ++ [0x2D]) lines bodies ∧
      bodies.flatten.filter (fun r => !isSpace r) = input.filter (fun r => !isSpace r) := by
  obtain ⟨h1, h2⟩ := tokenizer_words ht
  obtain ⟨bs, h3, h4⟩ := reflow_bodies (by intro r hr; rw [List.eq_of_mem_replicate hr]; rfl)
    (C50_text_kept c hW (fun t ht => (h2 t ht).1) h)
  refine ⟨bs, h3.imp ?_, ?_⟩
  · rintro line body ⟨e, rfl, he⟩
    have : e = [] ∨ e = [0x2D] := by tauto
    rcases this with rfl | rfl
    · exact Or.inl (by simp)
    · exact Or.inr rfl
  · rw [h4, joined_text, h1, List.filter_filter]
    simp

theorem joined_split (ts : List (List Rune)) (p rest : List Ch) (h : joined ts = p ++ .gap :: rest) :
    ∃ a b, ts = a ++ b ∧ a ≠ [] ∧ b ≠ [] ∧ p = joined a ∧ rest = joined b := by
  have hrune : ∀ (t : List Rune) (x y p : List Ch), t.map Ch.rune ++ x = p ++ .gap :: y →
      ∃ q, p = t.map Ch.rune ++ q ∧ x = q ++ .gap :: y := by
    intro t
    induction t with
    | nil => intro x y p h; exact ⟨p, rfl, by simpa using h⟩
    | cons r t ih =>
      intro x y p h
      cases p with
      | nil => simp at h
      | cons c p =>
        simp only [List.map_cons, List.cons_append, List.cons.injEq] at h
        obtain ⟨q, e1, e2⟩ := ih x y p h.2
        exact ⟨q, by rw [e1, ← h.1]; rfl, e2⟩
  induction ts generalizing p with
  | nil => simp [joined] at h
  | cons t ts ih =>
    cases ts with
    | nil =>
      obtain ⟨q, _, e⟩ := hrune t [] rest p (by simpa [joined] using h)
      simp at e
    | cons u us =>
      obtain ⟨q, rfl, e⟩ := hrune t (.gap :: joined (u :: us)) rest p h
      cases q with
      | nil =>
        simp only [List.nil_append, List.cons.injEq, true_and] at e
        exact ⟨[t], u :: us, rfl, by simp, by simp, by simp [joined], e.symm⟩
      | cons x q =>
        simp only [List.cons_append, List.cons.injEq] at e
        obtain ⟨a, b, e1, ha, hb, e2, e3⟩ := ih q e.2
        refine ⟨t :: a, b, by rw [e1]; rfl, by simp, hb, ?_, e3⟩
        obtain ⟨v, a, rfl⟩ := List.exists_cons_of_ne_nil ha
        rw [e2, ← e.1]
        rfl

theorem chText_joined (ts : List (List Rune)) : chText [0x20] (joined ts) = List.intercalate [0x20] ts := by
  induction ts with
  | nil => rfl
  | cons t ts ih =>
    cases ts with
    | nil => simp [joined, chText_runes, List.intercalate]
    | cons u us =>
      simp only [joined, chText_append, chText_runes, chText, ih]
      simp [List.intercalate]

theorem reflow_words {inWord : Rune → List Rune → Prop} {s : List Ch} {lines : List (List Rune)}
    (h : Reflow [0x20] (fun e => e = []) inWord s lines) (ts : List (List Rune)) (hs : s = joined ts)
    (hin : ∀ t ∈ ts, ∀ r ∈ t, ∀ e, ¬ inWord r e) (hne : ∀ t ∈ ts, t ≠ [] ∧ ∀ r ∈ t, isSpace r = false) :
    ∃ groups, lines.mapM tokenizerBreakWord = .ok groups ∧ groups.flatten = ts := by
  have hline : ∀ a : List (List Rune), (∀ t ∈ a, t ≠ [] ∧ ∀ r ∈ t, isSpace r = false) →
      tokenizerBreakWord (chText [0x20] (joined a)) = .ok a := by
    intro a ha
    rw [chText_joined]
    exact C03_fields_join isSpace 0x20 rfl a ha
  induction h generalizing ts with
  | last p =>
    subst hs
    refine ⟨[ts], ?_, by simp⟩
    rw [List.mapM_cons, hline ts hne]
    rfl
  | gap p x hx _ ih =>
    obtain ⟨a, b, rfl, _, _, e1, e2⟩ := joined_split ts p _ hs.symm
    obtain ⟨gs, h1, h2⟩ := ih b e2 (fun t ht => hin t (by simp [ht])) (fun t ht => hne t (by simp [ht]))
    refine ⟨a :: gs, ?_, by simp [h2]⟩
    have hx' : x = [] := hx
    subst hx'
    rw [List.mapM_cons, List.append_nil, e1, hline a (fun t ht => hne t (by simp [ht])), h1]
    rfl
  | inside p q q' x hx _ ih =>
    obtain ⟨t, ht, hr⟩ := mem_joined ts q (by rw [← hs]; simp)
    exact absurd hx (hin t ht q hr x)

/-- **C75.** When words are not broken and have no punctuation marks, the words of the lines are the words of the
text. -/
theorem C75_words {input : List Rune} {lines : List (List Rune)}
    (c : Call rt env dict opts text 1 l tokens maxWidth W) (hW : 0 < W) (ht : tokenizerBreakWord input = .ok tokens)
    (hb : (defaultOptions opts).wordBreak = false)
    (ho : (defaultOptions opts).renderHyphens = true → OwnPenalty (defaultOptions opts))
    (hm : ∀ r ∈ input, ¬ IsMark env r)
    (h : leftAlignUniform rt env l tokens maxWidth = .ok (some lines, l')) :
    ∃ groups, lines.mapM tokenizerBreakWord = .ok groups ∧ groups.flatten = tokens := by
  obtain ⟨h1, h2⟩ := tokenizer_words ht
  refine reflow_words (C63_words_whole c hW (fun t ht => (h2 t ht).1) hb ho h) tokens rfl ?_ h2
  intro t htt r hr e he
  refine hm r ?_ he.2
  have : r ∈ tokens.flatten := by rw [List.mem_flatten]; exact ⟨t, htt, hr⟩
  rw [h1, List.mem_filter] at this
  exact this.1

end

/-! ## Concrete cases -/

local instance textLaws : Laws Rat := ratLaws (2 ^ 53) (le_refl _)

/-- Words given as bytes: one is not UTF-8. -/
def byteWords : List (List Nat) := [[0x61, 0x62], [0xC3, 0xA9, 0xC3, 0xA9], [0x63, 0xFF, 0x64]]

example : (leftAlignStrings forward Env.ascii (demo []) byteWords (Arith.ofInt 5 : Rat)).map (·.1) =
    .ok (some [[0x61, 0x62, 0x20, 0xC3, 0xA9, 0xC3, 0xA9], [0x63, 0xEF, 0xBF, 0xBD, 0x64]]) := by decide +kernel

example {lines : List (List Nat)} {l' : LineBreaker Rat}
    (h : leftAlignStrings forward Env.ascii (demo []) byteWords (Arith.ofInt 5) = .ok (some lines, l')) :
    ∃ texts : List (List Rune), lines = texts.map utf8s := by
  obtain ⟨t, ht, _⟩ := C74_strings (n := 1) (unit_call [] sane_demo rfl (by decide +kernel) (by decide +kernel)) (by decide)
    (by decide) h
  exact ⟨t, ht⟩

example : leftAlignStrings forward Env.ascii (demo []) [utf8s (runesOf "ab"), utf8s (runesOf "éé")] (Arith.ofInt 5 : Rat) =
    (leftAlignUniform forward Env.ascii (demo []) [runesOf "ab", runesOf "éé"] (Arith.ofInt 5)).map (fun p =>
      (p.1.map (fun lines => lines.map (fun line => (line.map (fun r => encodeRune r)).flatten)), p.2)) :=
  C74_encoded_words (words := [runesOf "ab", runesOf "éé"]) (by decide +kernel)

/-- The words of a text over several lines. -/
theorem text_tokens : tokenizerBreakWord (runesOf " aaaa\t bb\ncccc ddd\n") = .ok (["aaaa", "bb", "cccc", "ddd"].map runesOf) := by
  decide +kernel

example : ∃ lines groups, linesOf forward (demo [.wordBreak false]) ["aaaa", "bb", "cccc", "ddd"] 7 = .ok (some lines) ∧
    lines.mapM tokenizerBreakWord = .ok groups ∧ groups.flatten = ["aaaa", "bb", "cccc", "ddd"].map runesOf := by
  have h : linesOf forward (demo [.wordBreak false]) ["aaaa", "bb", "cccc", "ddd"] 7 =
      .ok (some [runesOf "aaaa", runesOf "bb cccc", runesOf "ddd"]) := by decide +kernel
  obtain ⟨l', h'⟩ := linesOf_ok h
  have hm : ∀ r ∈ runesOf " aaaa\t bb\ncccc ddd\n", ¬ IsMark Env.ascii r := by unfold IsMark; decide +kernel
  obtain ⟨g, h1, h2⟩ := C75_words (unit_call [.wordBreak false] sane_whole rfl (by decide +kernel) (by decide +kernel))
    (by decide) text_tokens rfl (fun _ => ⟨by decide +kernel, by decide +kernel, by decide +kernel, by decide +kernel⟩) hm h'
  exact ⟨_, g, h, h1, h2⟩

/-- A word of the text is broken: its parts are words of the lines, and the text is there after the final hyphens are
taken out. -/
theorem broken_words :
    linesOf forward (demo []) ["aabbdcc"] 6 = .ok (some [runesOf "aa-", runesOf "bbdcc"]) ∧
    tokenizerBreakWord (runesOf "aabbdcc") = .ok [runesOf "aabbdcc"] ∧
    [runesOf "aa-", runesOf "bbdcc"].mapM tokenizerBreakWord = .ok [[runesOf "aa-"], [runesOf "bbdcc"]] := by
  decide +kernel

example : ∃ bodies : List (List Rune),
    List.Forall₂ (fun line body => line = body ∨ line = body ++ [0x2D]) [runesOf "aa-", runesOf "bbdcc"] bodies ∧
      bodies.flatten.filter (fun r => !isSpace r) = (runesOf " aabbdcc\n").filter (fun r => !isSpace r) := by
  obtain ⟨l', h'⟩ := linesOf_ok broken_words.1
  exact C75_content (unit_call [] sane_demo rfl (by decide +kernel) (by decide +kernel)) (by decide) (by decide +kernel) h'

end Verif.Props
