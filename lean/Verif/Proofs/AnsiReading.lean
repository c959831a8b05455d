import Verif.Proofs.AnsiCut
import Verif.Spec.Reading

/-! # The units of a text, and the results of StripToken -/

namespace Verif.Proofs.Ansi
open Verif.Go Verif.Model Verif.Model.Ansi Verif.Spec.Ansi

/-! ## Sequences -/

/-- The three kinds of texts that begin with an introducer. -/
theorem opened_cases {env : Env} : ∀ (rest o ds : List Rune), Opened env o → (∀ r ∈ ds, env.isDigit r = true) →
    ds.length ≤ 2 →
    (∃ o' ds', Opened env o' ∧ (∀ r ∈ ds', env.isDigit r = true) ∧ ds'.length ≤ 2 ∧ o ++ ds ++ rest = o' ++ ds') ∨
    (∃ o' ds' key l, Opened env o' ∧ (∀ r ∈ ds', env.isDigit r = true) ∧ ds'.length ≤ 2 ∧ env.isDigit key = false ∧
      ¬ IsSep key ∧ o ++ ds ++ rest = o' ++ ds' ++ key :: l) ∨
    (∃ h l, LongHead env h ∧ o ++ ds ++ rest = h ++ l)
  | [], o, ds, ho, hds, hlen => .inl ⟨o, ds, ho, hds, hlen, by simp⟩
  | r :: rest, o, ds, ho, hds, hlen => by
    cases hdig : env.isDigit r with
    | true =>
      by_cases hk : ds.length ≥ 2
      · obtain ⟨d1, d2, rfl⟩ : ∃ d1 d2, ds = [d1, d2] := by
          match ds, hlen, hk with
          | [d1, d2], _, _ => exact ⟨d1, d2, rfl⟩
        exact .inr (.inr ⟨o ++ [d1, d2, r], rest, ⟨o, d1, d2, r, ho, hds _ (by simp), hds _ (by simp), hdig, rfl⟩,
          by simp⟩)
      · have := opened_cases rest o (ds ++ [r]) ho
          (by intro x hx; rcases List.mem_append.mp hx with h | h
              · exact hds x h
              · rw [List.mem_singleton.mp h]; exact hdig) (by simp; omega)
        simpa using this
    | false =>
      by_cases hsep : IsSep r
      · have := opened_cases rest (o ++ ds ++ [r]) [] (.next ho hds hlen hsep) (by simp) (by simp)
        simpa using this
      · exact .inr (.inl ⟨o, ds, r, rest, ho, hds, hlen, hdig, hsep, rfl⟩)

theorem opened_form {env : Env} {o : List Rune} (ho : Opened env o) : o = introducer ∨
    ∃ (first : List Rune) (more : List (Rune × List Rune)) (x : Rune), (∀ r ∈ first, env.isDigit r = true) ∧
      first.length ≤ 2 ∧ (∀ p ∈ more, (IsSep p.1 ∧ ∀ r ∈ p.2, env.isDigit r = true) ∧ p.2.length ≤ 2) ∧ IsSep x ∧
      o = introducer ++ first ++ more.flatMap (fun p => p.1 :: p.2) ++ [x] := by
  induction ho with
  | first => exact .inl rfl
  | @next o ds x ho hds hlen hx ih =>
    right
    rcases ih with rfl | ⟨first, more, y, h1, h2, h3, h4, rfl⟩
    · exact ⟨ds, [], x, hds, hlen, by simp, hx, by simp⟩
    · refine ⟨first, more ++ [(y, ds)], x, h1, h2, ?_, hx, by simp⟩
      intro p hp
      rcases List.mem_append.mp hp with h | h
      · exact h3 p h
      · rw [List.mem_singleton.mp h]; exact ⟨⟨h4, hds⟩, hlen⟩

theorem opened_seq {env : Env} {o ds : List Rune} {key : Rune} (ho : Opened env o)
    (hds : ∀ r ∈ ds, env.isDigit r = true) (hlen : ds.length ≤ 2) (hk : env.isDigit key = false) (hs : ¬ IsSep key) :
    ∃ s : CtlSeq, s.WellFormed env ∧ s.Short ∧ s.runes = o ++ ds ++ [key] := by
  rcases opened_form ho with rfl | ⟨first, more, y, h1, h2, h3, h4, rfl⟩
  · exact ⟨⟨ds, [], key⟩, ⟨hds, by simp, hk, hs⟩, ⟨hlen, by simp⟩, by simp [CtlSeq.runes]⟩
  · refine ⟨⟨first, more ++ [(y, ds)], key⟩, ⟨h1, ?_, hk, hs⟩, ⟨h2, ?_⟩, by simp [CtlSeq.runes]⟩
    · intro p hp
      rcases List.mem_append.mp hp with h | h
      · exact (h3 p h).1
      · rw [List.mem_singleton.mp h]; exact ⟨h4, hds⟩
    · intro p hp
      rcases List.mem_append.mp hp with h | h
      · exact (h3 p h).2
      · rw [List.mem_singleton.mp h]; exact hlen

theorem decodeSeq_unfinished {env : Env} (hd : AsciiDigits env) {o ds : List Rune} (ho : Opened env o)
    (hds : ∀ r ∈ ds, env.isDigit r = true) (hlen : ds.length ≤ 2) :
    decodeSeq env (o ++ ds) = some ((o ++ ds).length, .other) := by
  obtain ⟨first, zero, h⟩ := decodeSeq_opened hd ho
  obtain ⟨z, hz⟩ := seqScan_short env ds 0 first zero o.length hds (by omega)
  have := hz []
  rw [List.append_nil] at this
  rw [h, this]
  simp only [seqScan, List.length_append]
  cases z <;> rfl

theorem kindOf_other (s : CtlSeq) : kindOf s = .other ↔ ¬ s.Starts ∧ ¬ s.Stops := by
  rw [← kindOf_start, ← kindOf_stop]
  cases kindOf s <;> simp

/-! ## Runs of text -/

theorem letters_len {t : List Rune} (ht : Letters t) {l : List Rune} (hl : l = [] ∨ ∃ m, l = introducer ++ m) :
    textLen (t ++ l) = t.length := by
  induction ht with
  | nil =>
    rcases hl with rfl | ⟨m, rfl⟩
    · rfl
    · simp [introducer, textLen, esc, openingBracket]
  | @rune r t hr _ ih =>
    cases hm : t ++ l with
    | nil =>
      have : t = [] ∧ l = [] := by simpa using hm
      simp [this.1, this.2, textLen]
    | cons b rest =>
      rw [List.cons_append, hm, textLen, if_neg (show ¬ r = esc from hr), ← hm, ih]
      simp; omega
  | @pair r t hr _ ih =>
    rw [List.cons_append, List.cons_append, textLen, if_pos (show (0x1B : Rune) = esc from rfl),
      if_neg (show ¬ r = openingBracket from hr), ih]
    simp; omega

theorem letters_lastEsc {t : List Rune} (ht : Letters t) : textLen (t ++ [0x1B]) = t.length + 1 := by
  induction ht with
  | nil => rfl
  | @rune r t hr _ ih =>
    cases hm : t ++ [0x1B] with
    | nil => simp at hm
    | cons b rest =>
      rw [List.cons_append, hm, textLen, if_neg (show ¬ r = esc from hr), ← hm, ih]
      simp; omega
  | @pair r t hr _ ih =>
    rw [List.cons_append, List.cons_append, textLen, if_pos (show (0x1B : Rune) = esc from rfl),
      if_neg (show ¬ r = openingBracket from hr), ih]
    simp; omega

theorem letters_none (env : Env) {t : List Rune} (ht : Letters t) (hne : t ≠ []) (l : List Rune) :
    decodeSeq env (t ++ l) = none := by
  cases ht with
  | nil => exact absurd rfl hne
  | rune hr _ => exact decodeSeq_not_esc env (by intro x hx; cases hx; exact hr)
  | pair hr _ => simp [decodeSeq, openingBracket, hr]

/-- Any text begins with letters, up to an introducer, to a last ESC or to its end. -/
theorem letters_split : ∀ l : List Rune,
    (∃ t m, Letters t ∧ l = t ++ m ∧ (m = [] ∨ ∃ m', m = introducer ++ m')) ∨ ∃ t, Letters t ∧ l = t ++ [0x1B]
  | [] => .inl ⟨[], [], .nil, rfl, .inl rfl⟩
  | [a] => by
    by_cases ha : a = 0x1B
    · exact .inr ⟨[], .nil, by rw [ha]; rfl⟩
    · exact .inl ⟨[a], [], .rune ha .nil, by simp, .inl rfl⟩
  | a :: b :: rest => by
    by_cases ha : a = 0x1B
    · subst ha
      by_cases hb : b = 0x5B
      · subst hb
        exact .inl ⟨[], _, .nil, rfl, .inr ⟨rest, rfl⟩⟩
      · rcases letters_split rest with ⟨t, m, h1, h2, h3⟩ | ⟨t, h1, h2⟩
        · exact .inl ⟨_, m, .pair hb h1, by rw [h2]; rfl, h3⟩
        · exact .inr ⟨_, .pair hb h1, by rw [h2]; rfl⟩
    · rcases letters_split (b :: rest) with ⟨t, m, h1, h2, h3⟩ | ⟨t, h1, h2⟩
      · exact .inl ⟨_, m, .rune ha h1, by rw [h2]; rfl, h3⟩
      · exact .inr ⟨_, .rune ha h1, by rw [h2]; rfl⟩

/-! ## Units, as decoded -/

/-- The unit of a sequence. -/
def unitOf : Kind → List Rune → Lexeme
  | .start, s => .start s
  | .stop, s => .stop s
  | .other, s => .other s

/-- The units of a text as the decoder finds them. -/
inductive Decoded (env : Env) : List Rune → List Lexeme → Prop where
  | nil : Decoded env [] []
  | text {l us} : decodeSeq env l = none → l ≠ [] → Decoded env (l.drop (textLen l)) us →
      Decoded env l (.text (l.take (textLen l)) :: us)
  | seq {l n k us} : decodeSeq env l = some (n, k) → n ≤ l.length → Decoded env (l.drop n) us →
      Decoded env l (unitOf k (l.take n) :: us)

theorem decoded_unique {env : Env} {l : List Rune} {us us' : List Lexeme} (h : Decoded env l us)
    (h' : Decoded env l us') : us' = us := by
  induction h generalizing us' with
  | nil =>
    generalize hl : ([] : List Rune) = l at h'
    cases h' with
    | nil => rfl
    | text _ hne _ => exact absurd hl.symm hne
    | seq h _ _ => subst hl; cases h
  | text h1 h2 h3 ih =>
    cases h' with
    | nil => exact absurd rfl h2
    | text _ _ h => rw [ih h]
    | seq h _ _ => rw [h1] at h; cases h
  | seq h1 h2 h3 ih =>
    cases h' with
    | nil => cases h1
    | text h _ _ => rw [h1] at h; cases h
    | seq h _ h' => rw [h1] at h; cases h; rw [ih h']

theorem decoded_of_reads {env : Env} (hd : AsciiDigits env) {l : List Rune} {us : List Lexeme} (h : Reads env l us) :
    Decoded env l us := by
  induction h with
  | nil => exact .nil
  | @text t l us ht hne hl _ ih =>
    have e := letters_len ht hl
    have := Decoded.text (us := us) (letters_none env ht hne l) (by simp [hne]) (by rw [e]; simpa using ih)
    rw [e] at this
    simpa using this
  | @lastEsc t ht =>
    have e := letters_lastEsc ht
    have hn : decodeSeq env (t ++ [0x1B]) = none := by
      cases ht with
      | nil => rfl
      | rune hr h => exact letters_none env (.rune hr h) (by simp) _
      | pair hr h => exact letters_none env (.pair hr h) (by simp) _
    have hlen : (t ++ [(0x1B : Rune)]).length = t.length + 1 := by simp
    have := Decoded.text (us := []) hn (by simp) (by rw [e, ← hlen, List.drop_length]; exact .nil)
    rw [e, ← hlen, List.take_length] at this
    exact this
  | @start s l us hw hs hk _ ih =>
    have := Decoded.seq (us := us) (decodeSeq_complete hd hw hs l) (by simp) (by simpa using ih)
    rw [(kindOf_start s).mpr hk] at this
    simpa [unitOf] using this
  | @stop s l us hw hs hk _ ih =>
    have := Decoded.seq (us := us) (decodeSeq_complete hd hw hs l) (by simp) (by simpa using ih)
    rw [(kindOf_stop s).mpr hk] at this
    simpa [unitOf] using this
  | @other s l us hw hs hk hk' _ ih =>
    have := Decoded.seq (us := us) (decodeSeq_complete hd hw hs l) (by simp) (by simpa using ih)
    rw [(kindOf_other s).mpr ⟨hk, hk'⟩] at this
    simpa [unitOf] using this
  | @long h r l us hh _ ih =>
    have e : h ++ r :: l = (h ++ [r]) ++ l := by simp
    have hl : h.length + 1 = (h ++ [r]).length := by simp
    have := Decoded.seq (us := us) (decodeSeq_long hd hh (r :: l)) (by simp) (by rw [e, hl]; simpa using ih)
    rw [hl, e, List.take_left] at this
    rw [e]; exact this
  | @unfinished o ds ho hds hlen =>
    have := Decoded.seq (us := []) (decodeSeq_unfinished hd ho hds hlen) (Nat.le_refl _)
      (by rw [List.drop_length]; exact .nil)
    rw [List.take_length] at this
    exact this

/-- Any text that does not end in a parameter of three digits can be read. -/
theorem reads_exists {env : Env} (hd : AsciiDigits env) : ∀ (n : Nat) (l : List Rune), l.length ≤ n →
    ¬ Overruns env l → ∃ us, Reads env l us
  | n, l, hn, ho => by
    rcases letters_split l with ⟨t, m, h1, rfl, h3⟩ | ⟨t, h1, rfl⟩
    · by_cases ht : t = []
      · subst ht
        rw [List.nil_append] at hn ho ⊢
        rcases h3 with rfl | ⟨m', rfl⟩
        · exact ⟨_, .nil⟩
        · obtain ⟨n, rfl⟩ : ∃ k, n = k + 1 := ⟨n - 1, by simp [introducer] at hn; omega⟩
          have hc := opened_cases (env := env) m' introducer [] .first (by simp) (by simp)
          rw [List.append_nil] at hc
          rcases hc with ⟨o, ds, g1, g2, g3, g4⟩ | ⟨o, ds, key, l, g1, g2, g3, g4, g5, g6⟩ | ⟨h, l, g1, g2⟩
          · rw [g4]; exact ⟨_, .unfinished g1 g2 g3⟩
          · obtain ⟨s, s1, s2, s3⟩ := opened_seq g1 g2 g3 g4 g5
            have e : introducer ++ m' = s.runes ++ l := by rw [g6, s3]; simp
            rw [e] at ho hn ⊢
            have hne := runes_length s
            obtain ⟨us, hus⟩ := reads_exists hd n l (by simp only [List.length_append] at hn; omega)
              (fun h => ho (.seq (decodeSeq_complete hd s1 s2 l) (by simp) (by simpa using h)))
            by_cases k1 : s.Starts
            · exact ⟨_, .start s1 s2 k1 hus⟩
            · by_cases k2 : s.Stops
              · exact ⟨_, .stop s1 s2 k2 hus⟩
              · exact ⟨_, .other s1 s2 k1 k2 hus⟩
          · rw [g2] at ho hn ⊢
            cases l with
            | nil =>
              have := decodeSeq_long hd g1 []
              rw [List.append_nil] at this ho
              exact absurd (.here this) ho
            | cons r l =>
              obtain ⟨us, hus⟩ := reads_exists hd n l (by simp only [List.length_append, List.length_cons] at hn; omega)
                (fun hh => ho (.seq (decodeSeq_long hd g1 (r :: l)) (by simp)
                  (by rw [show h ++ r :: l = (h ++ [r]) ++ l by simp, show h.length + 1 = (h ++ [r]).length by simp]
                      simpa using hh)))
              exact ⟨_, .long g1 hus⟩
      · obtain ⟨n, rfl⟩ : ∃ k, n = k + 1 := by
          refine ⟨n - 1, ?_⟩
          have := List.length_pos_iff.mpr ht
          simp only [List.length_append] at hn
          omega
        have hlen := List.length_pos_iff.mpr ht
        obtain ⟨us, hus⟩ := reads_exists hd n m (by simp only [List.length_append] at hn; omega) (fun h => ho (.text (letters_none env h1 ht m)
          (by rw [letters_len h1 h3]; simpa using h)))
        exact ⟨_, .text h1 ht h3 hus⟩
    · exact ⟨_, .lastEsc h1⟩
termination_by n => n

/-- A text is read in one way. -/
theorem reads_unique {env : Env} (hd : AsciiDigits env) {l : List Rune} {us us' : List Lexeme} (h : Reads env l us)
    (h' : Reads env l us') : us' = us := decoded_unique (decoded_of_reads hd h) (decoded_of_reads hd h')

/-- The units of a text, end to end, are the text. -/
theorem reads_runes {env : Env} {l : List Rune} {us : List Lexeme} (h : Reads env l us) :
    us.flatMap Lexeme.runes = l := by
  induction h with
  | nil => rfl
  | text _ _ _ _ ih => simp [Lexeme.runes, ih]
  | lastEsc _ => simp [Lexeme.runes]
  | start _ _ _ _ ih => simp [Lexeme.runes, ih]
  | stop _ _ _ _ ih => simp [Lexeme.runes, ih]
  | other _ _ _ _ _ ih => simp [Lexeme.runes, ih]
  | long _ _ ih => simp [Lexeme.runes, ih]
  | unfinished _ _ _ => simp [Lexeme.runes]

/-! ## Results -/

theorem trail_results {env : Env} {l : List Rune} {t p d : Nat} (h : Trail env l t p d) (ho : ¬ Overruns env l) :
    ∀ {us : List Lexeme}, Decoded env l us → ∃ us', Decoded env (l.drop d) us' ∧ ∀ st tx,
      resultsFrom (.reading st tx) us = (st, tx ++ l.take t, (l.drop t).take p) :: resultsFrom .idle us' := by
  induction h with
  | done h1 =>
    intro us hu
    refine ⟨us, by simpa using hu, fun st tx => ?_⟩
    cases hu with
    | nil => simp [resultsFrom]
    | text _ _ _ => simp [resultsFrom]
    | seq h _ _ => rw [h1] at h; cases h
  | start h1 =>
    intro us hu
    refine ⟨us, by simpa using hu, fun st tx => ?_⟩
    cases hu with
    | nil => cases h1
    | text h _ _ => rw [h1] at h; cases h
    | seq h _ _ => rw [h1] at h; cases h; simp [unitOf, resultsFrom]
  | @other l n t p d h1 h2 _ ih =>
    intro us hu
    cases hu with
    | nil => cases h1
    | text h _ _ => rw [h1] at h; cases h
    | seq h _ h' =>
      rw [h1] at h; cases h
      obtain ⟨us', g1, g2⟩ := ih (fun h => ho (.seq h1 h2 h)) h'
      refine ⟨us', by simpa [List.drop_drop] using g1, fun st tx => ?_⟩
      simp only [unitOf, resultsFrom]
      rw [g2, List.append_assoc, List.take_add, List.drop_drop]
  | overrun h1 => exact absurd (.here h1) ho
  | stop h1 h2 _ =>
    intro us hu
    cases hu with
    | nil => cases h1
    | text h _ _ => rw [h1] at h; cases h
    | seq h _ h' =>
      rw [h1] at h; cases h
      exact ⟨_, h', fun st tx => by simp [unitOf, resultsFrom]⟩
  | stopOverrun h1 h2 h3 => exact absurd (.seq h1 h2 (.here h3)) ho

theorem body_results {env : Env} {s : Bool} {l : List Rune} {x : Bool} {b c d : Nat} (h : Body env s l x b c d)
    (ho : ¬ Overruns env l) {us : List Lexeme} (hu : Decoded env l us) : ∃ us', Decoded env (l.drop d) us' ∧
      (s = true → ∀ st, resultsFrom (.opened st) us = (st, l.take b, (l.drop b).take (c - b)) :: resultsFrom .idle us') ∧
      (s = false → us ≠ [] → resultsFrom .idle us = ([], l.take b, (l.drop b).take (c - b)) :: resultsFrom .idle us') := by
  cases h with
  | other h1 h2 =>
    cases hu with
    | nil => cases h1
    | text h _ _ => rw [h1] at h; cases h
    | seq h _ h' =>
      rw [h1] at h; cases h
      exact ⟨_, h', by simp [unitOf, resultsFrom], by simp [unitOf, resultsFrom]⟩
  | overrun h1 => exact absurd (.here h1) ho
  | stop h1 h2 =>
    cases hu with
    | nil => cases h1
    | text h _ _ => rw [h1] at h; cases h
    | seq h _ h' =>
      rw [h1] at h; cases h
      exact ⟨_, h', by simp [unitOf, resultsFrom], by simp [unitOf, resultsFrom]⟩
  | start hs h1 h2 =>
    subst hs
    refine ⟨us, by simpa using hu, fun _ st => ?_, by simp⟩
    cases hu with
    | nil => cases h1
    | text h _ _ => rw [h1] at h; cases h
    | seq h _ _ => rw [h1] at h; cases h; simp [unitOf, resultsFrom]
  | @text t p d h1 h2 =>
    cases hu with
    | nil =>
      obtain ⟨us', g1, g2⟩ := trail_results h2 ho (us := []) (by simpa [textLen] using Decoded.nil)
      have : us' = [] := decoded_unique .nil (by simpa using g1)
      subst this
      exact ⟨[], by simpa using Decoded.nil, by simp [resultsFrom], by simp⟩
    | @text _ us _ hne h' =>
      obtain ⟨us', g1, g2⟩ := trail_results h2 (fun h => ho (.text h1 h)) h'
      refine ⟨us', by simpa [List.drop_drop] using g1, fun _ st => ?_, fun _ _ => ?_⟩
      · rw [resultsFrom, g2, Nat.add_sub_cancel_left, List.take_add (i := textLen l) (j := t), List.drop_drop]
      · rw [resultsFrom, g2, Nat.add_sub_cancel_left, List.take_add (i := textLen l) (j := t), List.drop_drop]
    | seq h _ _ => rw [h1] at h; cases h

theorem strip_results {env : Env} {l : List Rune} {a b c d : Nat} {x : Bool} (h : Strip env l a x b c d)
    (ho : ¬ Overruns env l) {us : List Lexeme} (hu : Decoded env l us) (hne : us ≠ []) :
    ∃ us', Decoded env (l.drop (a + d)) us' ∧ resultsFrom .idle us =
      (l.take a, (l.drop a).take b, (l.drop (a + b)).take (c - b)) :: resultsFrom .idle us' := by
  cases h with
  | plain h =>
    obtain ⟨us', g1, _, g2⟩ := body_results h ho hu
    exact ⟨us', by simpa using g1, by simpa using g2 rfl hne⟩
  | styled h1 h2 h3 =>
    cases hu with
    | nil => cases h1
    | text h _ _ => rw [h1] at h; cases h
    | seq h _ h' =>
      rw [h1] at h; cases h
      obtain ⟨us', g1, g2, _⟩ := body_results h3 (fun h => ho (.seq h1 h2 h)) h'
      refine ⟨us', by simpa [List.drop_drop] using g1, ?_⟩
      rw [unitOf, resultsFrom, g2 rfl, List.drop_drop]

theorem decoded_empty {env : Env} {l : List Rune} {us : List Lexeme} (h : Decoded env l us) : us = [] ↔ l = [] := by
  cases h with
  | nil => simp
  | text _ hne _ => simp [hne]
  | @seq _ n k us h _ _ =>
    constructor
    · intro e; cases e
    · intro e; subst e; cases h

theorem run_results {env : Env} {mem : List Rune} {v : View} {toks : List StrippedToken} (h : Run env mem v toks)
    (hv : v.Valid mem) (ho : ¬ Overruns env (v.elems mem)) {us : List Lexeme} (hu : Decoded env (v.elems mem) us)
    (hne : us ≠ []) : toks.map (tokParts mem) = resultsFrom .idle us := by
  have hparts : ∀ {v : View} {a b c d : Nat} {x : Bool}, Strip env (v.elems mem) a x b c d → b ≤ c → a + c ≤ v.len →
      tokParts mem (result v a x b c d) =
        ((v.elems mem).take a, ((v.elems mem).drop a).take b, ((v.elems mem).drop (a + b)).take (c - b)) := by
    intro v a b c d x h1 h2 h3
    unfold tokParts
    rw [result_start mem v a x b c d (by omega), result_text mem v h1 (by omega), result_stop mem v a x b c d h2 h3]
  induction h generalizing us with
  | @last v a x b c d h1 h2 h3 h4 =>
    have hw := strip_whole h1 ho
    subst hw
    obtain ⟨us', g1, g2⟩ := strip_results h1 ho hu hne
    have hl := View.elems_length hv
    have : us' = [] := (decoded_empty g1).mpr (List.drop_eq_nil_of_le (by omega))
    subst this
    rw [g2, List.map_cons, List.map_nil, hparts h1 h3 (by omega)]
    rfl
  | @more v a x b c d toks h1 h2 h3 h4 h5 h6 ih =>
    have hw := strip_whole h1 ho
    subst hw
    obtain ⟨us', g1, g2⟩ := strip_results h1 ho hu hne
    have hl := View.elems_length hv
    have hv' : View.Valid mem ⟨v.off + (a + c), v.len - (a + c)⟩ := by
      unfold View.Valid at hv ⊢
      simp only
      omega
    have he := elems_drop mem v (a + c)
    have hne' : us' ≠ [] := by
      intro e
      have := (decoded_empty g1).mp e
      have := congrArg List.length this
      simp only [List.length_drop, List.length_nil] at this
      omega
    have hno : ¬ Overruns env ((v.elems mem).drop (a + c)) :=
      fun h => ho (strip_over_back h1 h)
    rw [g2, List.map_cons, hparts h1 h3 (by omega), ih hv' (by rw [he]; exact hno) (us := us') (by rw [he]; exact g1) hne']

end Verif.Proofs.Ansi
