import Verif.Spec.ByteRange
import Verif.Props.RunesIO

/-! # Property C110: any byte offsets -/

namespace Verif.Props
open Verif.Go Verif.Model Verif.Spec Verif.Proofs

theorem utf8s_cons_length (r : Rune) (rest : List Rune) :
    ((utf8s (r :: rest)).length : Int) = (utf8 r).length + (utf8s rest).length := by
  simp [utf8s]

theorem utf8s_append_length (x y : List Rune) :
    ((utf8s (x ++ y)).length : Int) = (utf8s x).length + (utf8s y).length := by
  simp [utf8s]

/-- Runes that end after `b` are followed by runes that end after `b`. -/
theorem wholeRunes_after (a b : Int) : ∀ (text : List Rune) (off : Int), b < off → wholeRunes a b off text = []
  | [], _, _ => rfl
  | r :: rest, off, h => by
    simp only [wholeRunes]
    rw [if_neg (by omega), wholeRunes_after a b rest _ (by omega)]
    rfl

/-- What the inner loop of SliceFromByteOffsets counts, for any offsets. -/
theorem byteLoop_any (a b : Int) : ∀ (text : List Rune), (∀ r ∈ text, IsScalar r) → ∀ (s e off : Int),
    ∃ S E : Nat, byteLoop a b text s e off = (s + S, e + E) ∧ E ≤ text.length ∧ (a ≤ off → S = 0) ∧
      ((S ≤ E ∧ ¬ Straddles text (a - off) (b - off) ∧ (text.drop S).take (E - S) = wholeRunes a b off text) ∨
       (E < S ∧ Straddles text (a - off) (b - off)))
  | [], _, s, e, off => by
    refine ⟨0, 0, by simp [byteLoop], Nat.le_refl _, fun _ => rfl, .inl ⟨Nat.le_refl _, ?_, rfl⟩⟩
    rintro ⟨x, r, y, h, _⟩
    cases x <;> cases h
  | r :: rest, hs, s, e, off => by
    have hr := runeLen_scalar (hs r (by simp))
    have hl := utf8_length r
    have ih := byteLoop_any a b rest (fun x hx => hs x (by simp [hx]))
    -- who straddles: the first rune, or one of the others
    have split : Straddles (r :: rest) (a - off) (b - off) ↔
        (off < a ∧ b < off + (utf8 r).length) ∨
          Straddles rest (a - (off + (utf8 r).length)) (b - (off + (utf8 r).length)) := by
      constructor
      · rintro ⟨x, q, y, h, h1, h2⟩
        cases x with
        | nil =>
          cases h
          left
          have e2 : ((utf8s ([] ++ [r])).length : Int) = (utf8 r).length := by simp [utf8s]
          have e1 : ((utf8s []).length : Int) = 0 := by simp [utf8s]
          rw [e1] at h1; rw [e2] at h2
          omega
        | cons z x =>
          rw [List.cons_append, List.cons.injEq] at h
          obtain ⟨rfl, h⟩ := h
          rw [List.cons_append, utf8s_cons_length] at h2
          rw [utf8s_cons_length] at h1
          exact .inr ⟨x, q, y, h, by omega, by omega⟩
      · rintro (⟨h1, h2⟩ | ⟨x, q, y, h, h1, h2⟩)
        · refine ⟨[], r, rest, rfl, ?_, ?_⟩
          · have e1 : ((utf8s []).length : Int) = 0 := by simp [utf8s]
            rw [e1]; omega
          · have e2 : ((utf8s ([] ++ [r])).length : Int) = (utf8 r).length := by simp [utf8s]
            rw [e2]; omega
        · refine ⟨r :: x, q, y, by rw [h]; rfl, ?_, ?_⟩
          · rw [utf8s_cons_length]; omega
          · rw [List.cons_append, utf8s_cons_length]; omega
    -- none does, when all start from `a` on
    have none : ∀ (t : List Rune) (o : Int), a ≤ o → ¬ Straddles t (a - o) (b - o) := by
      rintro t o ho ⟨x, q, y, _, h1, _⟩
      have := Int.natCast_nonneg (utf8s x).length
      omega
    simp only [byteLoop]
    rw [hr]
    by_cases hb : off + ((utf8 r).length : Int) > b
    · rw [if_pos hb]
      by_cases ha : off < a
      · rw [if_pos ha]
        exact ⟨1, 0, by simp, Nat.zero_le _, fun h => absurd ha (by omega), .inr ⟨by omega, split.mpr (.inl ⟨ha, hb⟩)⟩⟩
      · rw [if_neg ha]
        refine ⟨0, 0, by simp, Nat.zero_le _, fun _ => rfl, .inl ⟨Nat.le_refl _, none _ _ (by omega), ?_⟩⟩
        simp only [wholeRunes]
        rw [if_neg (by omega), wholeRunes_after a b rest _ hb]
        rfl
    · rw [if_neg hb]
      by_cases ha : off < a
      · rw [if_pos ha]
        obtain ⟨S, E, h1, h2, _, h3⟩ := ih (s + 1) (e + 1) (off + (utf8 r).length)
        refine ⟨S + 1, E + 1, ?_, by simpa using h2, fun h => absurd ha (by omega), ?_⟩
        · rw [h1, Prod.mk.injEq]; omega
        · rcases h3 with ⟨h3, h4, h5⟩ | ⟨h3, h4⟩
          · refine .inl ⟨by omega, fun h => ?_, ?_⟩
            · rcases split.mp h with ⟨_, h⟩ | h
              · omega
              · exact h4 h
            · simp only [wholeRunes]
              rw [if_neg (by omega), List.nil_append, ← h5, List.drop_succ_cons]
              congr 1; omega
          · exact .inr ⟨by omega, split.mpr (.inr h4)⟩
      · rw [if_neg ha]
        obtain ⟨S, E, h1, h2, h0, h3⟩ := ih s (e + 1) (off + (utf8 r).length)
        have h0 := h0 (by omega)
        subst h0
        refine ⟨0, E + 1, ?_, by simpa using h2, fun _ => rfl, .inl ⟨by omega, none _ _ (by omega), ?_⟩⟩
        · rw [h1, Prod.mk.injEq]; omega
        · rcases h3 with ⟨_, _, h5⟩ | ⟨h3, _⟩
          · simp only [wholeRunes]
            rw [if_pos (by omega), ← h5]
            simp
          · omega

/-- One pair of offsets. -/
theorem byteRange_any (mem : List Rune) (v : View) (hv : v.Valid mem) (hs : ∀ x ∈ v.elems mem, IsScalar x) (a b : Int) :
    (¬ Straddles (v.elems mem) a b → ∃ w,
      v.sub mem (byteLoop a b (v.elems mem) 0 0 0).1 (byteLoop a b (v.elems mem) 0 0 0).2 = .ok w ∧
      w.elems mem = wholeRunes a b 0 (v.elems mem)) ∧
    (Straddles (v.elems mem) a b →
      v.sub mem (byteLoop a b (v.elems mem) 0 0 0).1 (byteLoop a b (v.elems mem) 0 0 0).2 = .error .slice) := by
  obtain ⟨S, E, h1, h2, _, h3⟩ := byteLoop_any a b (v.elems mem) hs 0 0 0
  rw [Int.sub_zero, Int.sub_zero] at h3
  rw [h1]
  have hl := View.elems_length hv
  have hv' := hv
  unfold View.Valid at hv'
  dsimp only
  constructor
  · intro hn
    rcases h3 with ⟨h3, _, h5⟩ | ⟨_, h4⟩
    · refine ⟨⟨v.off + S, E - S⟩, ?_, ?_⟩
      · unfold View.sub
        rw [if_pos (by omega)]
        congr 2 <;> omega
      · rw [← h5]
        simp only [View.elems, List.drop_take, List.take_take, List.drop_drop]
        congr 1
        omega
    · exact absurd h4 hn
  · intro hn
    rcases h3 with ⟨_, h4, _⟩ | ⟨h3, _⟩
    · exact absurd hn h4
    · unfold View.sub
      rw [if_neg (by omega)]

/-- **C110.** Any offsets, in pairs: SliceFromByteOffsets returns, for each pair, the runes whose bytes all lie between
the two, unless some rune starts before the first and ends after the second. From any state of the reader. -/
theorem C110_whole_runes (mem : List Rune) (r : SliceReader) (hv : r.runes.Valid mem)
    (hs : ∀ x ∈ r.runes.elems mem, IsScalar x) (os : List Int) (ps : List (Int × Int)) (hp : pairs os = some ps)
    (hn : ∀ p ∈ ps, ¬ Straddles (r.runes.elems mem) p.1 p.2) :
    (r.sliceFromByteOffsets mem os).map (fun vs => vs.map (View.elems mem)) =
      .ok (ps.map (fun p => wholeRunes p.1 p.2 0 (r.runes.elems mem))) := by
  have loop : ∀ (os : List Int) (ps : List (Int × Int)), pairs os = some ps →
      (∀ p ∈ ps, ¬ Straddles (r.runes.elems mem) p.1 p.2) → os.length % 2 = 0 ∧ ∃ ws, byteSlicesLoop mem r.runes os = .ok ws ∧
        ws.map (View.elems mem) = ps.map (fun p => wholeRunes p.1 p.2 0 (r.runes.elems mem)) := by
    intro os
    induction os using pairs.induct with
    | case1 => intro ps h _; cases h; exact ⟨rfl, [], rfl, rfl⟩
    | case2 => intro ps h _; cases h
    | case3 a b rest ih =>
      intro ps h hn
      simp only [pairs, Option.map_eq_some_iff] at h
      obtain ⟨qs, h, rfl⟩ := h
      obtain ⟨h0, ws, h1, h2⟩ := ih qs h (fun p hp => hn p (List.mem_cons_of_mem _ hp))
      obtain ⟨w, h3, h4⟩ := (byteRange_any mem r.runes hv hs a b).1 (hn (a, b) List.mem_cons_self)
      refine ⟨by simp only [List.length_cons]; omega, w :: ws, ?_, ?_⟩
      · simp only [byteSlicesLoop]
        rw [h3, h1]; rfl
      · rw [List.map_cons, List.map_cons, h2, h4]
  obtain ⟨h0, ws, h1, h2⟩ := loop os ps hp hn
  unfold SliceReader.sliceFromByteOffsets
  rw [if_neg (by omega), h1]
  exact congrArg Except.ok h2

/-- **C110.** Otherwise it panics: when the offsets do not come in pairs, or some rune starts before the first offset of a
pair and ends after the second one. -/
theorem C110_panics (mem : List Rune) (r : SliceReader) (hv : r.runes.Valid mem)
    (hs : ∀ x ∈ r.runes.elems mem, IsScalar x) (os : List Int) :
    (∃ e, r.sliceFromByteOffsets mem os = .error e) ↔
      (pairs os = none ∨ ∃ ps, pairs os = some ps ∧ ∃ p ∈ ps, Straddles (r.runes.elems mem) p.1 p.2) := by
  have odd : ∀ os, pairs os = none ↔ os.length % 2 ≠ 0 := by
    intro os
    induction os using pairs.induct with
    | case1 => simp [pairs]
    | case2 => simp [pairs]
    | case3 a b rest ih =>
      simp only [pairs, Option.map_eq_none_iff, ih, List.length_cons]
      omega
  have loop : ∀ (os : List Int) (ps : List (Int × Int)), pairs os = some ps →
      (∃ p ∈ ps, Straddles (r.runes.elems mem) p.1 p.2) → ∃ e, byteSlicesLoop mem r.runes os = .error e := by
    intro os
    induction os using pairs.induct with
    | case1 => rintro ps h ⟨p, hp, _⟩; cases h; cases hp
    | case2 => intro ps h _; cases h
    | case3 a b rest ih =>
      rintro ps h ⟨p, hp, hst⟩
      simp only [pairs, Option.map_eq_some_iff] at h
      obtain ⟨qs, h, rfl⟩ := h
      simp only [byteSlicesLoop]
      by_cases hst' : Straddles (r.runes.elems mem) a b
      · rw [(byteRange_any mem r.runes hv hs a b).2 hst']
        exact ⟨_, rfl⟩
      · obtain ⟨w, h3, _⟩ := (byteRange_any mem r.runes hv hs a b).1 hst'
        rcases List.mem_cons.mp hp with rfl | hp
        · exact absurd hst hst'
        · obtain ⟨e, he⟩ := ih qs h ⟨p, hp, hst⟩
          rw [h3, he]
          exact ⟨e, rfl⟩
  constructor
  · rintro ⟨e, he⟩
    cases hp : pairs os with
    | none => exact .inl rfl
    | some ps =>
      refine .inr ⟨ps, rfl, ?_⟩
      apply Classical.byContradiction
      intro hn
      have := C110_whole_runes mem r hv hs os ps hp (fun p hp' hst => hn ⟨p, hp', hst⟩)
      rw [he] at this
      cases this
  · rintro (h | ⟨ps, h, hst⟩)
    · refine ⟨.explicit, ?_⟩
      unfold SliceReader.sliceFromByteOffsets
      rw [if_pos ((odd os).mp h)]
    · obtain ⟨e, he⟩ := loop os ps h hst
      refine ⟨e, ?_⟩
      unfold SliceReader.sliceFromByteOffsets
      rw [if_neg (fun hc => by rw [(odd os).mpr hc] at h; cases h), he]

theorem wholeRunes_none (a b : Int) (h : b ≤ 0) (text : List Rune) : wholeRunes a b 0 text = [] := by
  cases text with
  | nil => rfl
  | cons r rest =>
    have := utf8_length r
    simp only [wholeRunes]
    rw [if_neg (by omega), wholeRunes_after a b rest _ (by omega)]
    rfl

/-- **C110.** A group of a regular expression that takes no part in the match has the offsets (-1, -1): its runes are the
empty slice, in any text and beside any other offsets. -/
theorem C110_no_match (mem : List Rune) (r : SliceReader) (hv : r.runes.Valid mem)
    (hs : ∀ x ∈ r.runes.elems mem, IsScalar x) :
    ¬ Straddles (r.runes.elems mem) (-1) (-1) ∧ wholeRunes (-1) (-1) 0 (r.runes.elems mem) = [] ∧
    (r.sliceFromByteOffsets mem [-1, -1]).map (fun vs => vs.map (View.elems mem)) = .ok [[]] := by
  have h1 : ¬ Straddles (r.runes.elems mem) (-1) (-1) := by
    rintro ⟨x, q, y, _, h, _⟩
    have := Int.natCast_nonneg (utf8s x).length
    omega
  have h2 := wholeRunes_none (-1) (-1) (by omega) (r.runes.elems mem)
  refine ⟨h1, h2, ?_⟩
  rw [C110_whole_runes mem r hv hs [-1, -1] [(-1, -1)] rfl
    (fun p hp => by rw [List.mem_singleton.mp hp]; exact h1), List.map_singleton, h2]

/-- The sum of the sizes returned by successive calls of ReadRune. -/
def sizesOf : List ReaderOut → Int
  | [] => 0
  | .rune _ n :: outs => n + sizesOf outs
  | _ :: outs => sizesOf outs

/-- The runes returned by successive calls of ReadRune. -/
def runesIn : List ReaderOut → List Rune
  | [] => []
  | .rune x _ :: outs => x :: runesIn outs
  | _ :: outs => runesIn outs

/-- Reading `n` runes from a position of the text. -/
theorem read_run (text room : List Rune) (hs : ∀ x ∈ text, IsScalar x) : ∀ (n pos : Nat), pos + n ≤ text.length →
    (readerRun text room pos (List.replicate n .read)).2 = pos + n ∧
    runesIn (readerRun text room pos (List.replicate n .read)).1 = (text.drop pos).take n ∧
    sizesOf (readerRun text room pos (List.replicate n .read)).1 = (utf8s ((text.drop pos).take n)).length
  | 0, pos, _ => by simp [readerRun, runesIn, sizesOf, utf8s]
  | n + 1, pos, h => by
    have hlt : pos < text.length := by omega
    obtain ⟨h1, h2, h3⟩ := read_run text room hs n (pos + 1) (by omega)
    have hr : Spec.sizeOf text[pos] = (utf8 text[pos]).length := by
      unfold Spec.sizeOf
      rw [if_pos (hs _ (List.getElem_mem hlt))]
    have hst : readerStep text room pos .read = (.rune text[pos] (Spec.sizeOf text[pos]), pos + 1) := by
      simp [readerStep, List.getElem?_eq_getElem hlt]
    have e : (text.drop pos).take (n + 1) = text[pos] :: ((text.drop (pos + 1)).take n) := by
      rw [List.drop_eq_getElem_cons hlt, List.take_succ_cons]
    rw [List.replicate_succ]
    simp only [readerRun, hst, runesIn, sizesOf]
    refine ⟨by rw [h1]; omega, by rw [h2, e], ?_⟩
    rw [h3, e, utf8s_cons_length, hr]

/-- **C110.** What a matcher that reads the reader reports can be cut out: when some runes are read and then some more,
the offsets counted from the sizes returned give the runes read in the second part, wherever the reader is left. -/
theorem C110_read_offsets (mem : List Rune) (v : View) (hv : v.Valid mem) (hlen : (v.len : Int) < 2 ^ 63)
    (hs : ∀ x ∈ v.elems mem, IsScalar x) (i j : Nat) (h : i + j ≤ v.len) (r : SliceReader) (hr : r.runes = v) :
    let first := readerHistory mem (newSliceReader v) (List.replicate i .read)
    let second := readerHistory mem first.2 (List.replicate j .read)
    (r.sliceFromByteOffsets mem [sizesOf first.1, sizesOf first.1 + sizesOf second.1]).map
      (fun vs => vs.map (View.elems mem)) = .ok [runesIn second.1] := by
  intro first second
  have hl := View.elems_length hv
  have hint : ∀ n, ∀ op ∈ List.replicate n ReaderOp.read, OpInt64 op := fun n op hop => by
    rw [List.eq_of_mem_replicate hop]; exact trivial
  obtain ⟨a1, a2, a3⟩ := read_run (v.elems mem) (mem.drop v.off) hs i 0 (by omega)
  obtain ⟨b1, b2, b3⟩ := read_run (v.elems mem) (mem.drop v.off) hs j i (by omega)
  have e1 := (readerHistory_spec mem v hv hlen (List.replicate i .read) (hint i) 0 (Nat.zero_le _)).1
  have e2 := (readerHistory_spec mem v hv hlen (List.replicate j .read) (hint j) i (by omega)).1
  have f : first = _ := e1
  rw [a1, Nat.zero_add] at f
  have g : second = readerHistory mem first.2 (List.replicate j .read) := rfl
  rw [f] at g
  dsimp only at g
  rw [e2] at g
  rw [g, f]
  dsimp only
  rw [a3, b2, b3, List.drop_zero]
  subst hr
  have key := C35_byte_ranges mem r hv hs
    [((r.runes.elems mem).take i, ((r.runes.elems mem).drop i).take j, (r.runes.elems mem).drop (i + j))] (by
      intro p hp
      rw [List.mem_singleton.mp hp]
      dsimp only
      rw [List.append_assoc, ← List.drop_drop, List.take_append_drop, List.take_append_drop])
  simp only [List.flatMap_cons, List.flatMap_nil, List.append_nil, List.map_cons, List.map_nil] at key
  rw [utf8s_append_length] at key
  exact key

/-- "aé中!" with offsets in the middle of "é" and of "中", beyond the end, and in the wrong order behind the end. -/
example : (SliceReader.sliceFromByteOffsets [0x61, 0xE9, 0x4E2D, 0x21] ⟨2, ⟨0, 4⟩⟩ [2, 100, 0, 5, -7, 6, 90, 80]).map
    (fun vs => vs.map (View.elems [0x61, 0xE9, 0x4E2D, 0x21])) = .ok [[0x4E2D, 0x21], [0x61, 0xE9], [0x61, 0xE9, 0x4E2D], []] ∧
    [(2, 100), (0, 5), (-7, 6), (90, 80)].map (fun p => wholeRunes p.1 p.2 0 [0x61, 0xE9, 0x4E2D, 0x21]) =
      [[0x4E2D, 0x21], [0x61, 0xE9], [0x61, 0xE9, 0x4E2D], []] := by decide +kernel

/-- Offsets within "中", and in the wrong order within the text. -/
example : SliceReader.sliceFromByteOffsets [0x61, 0xE9, 0x4E2D, 0x21] ⟨0, ⟨0, 4⟩⟩ [4, 5] = .error .slice ∧
    Straddles [0x61, 0xE9, 0x4E2D, 0x21] 4 5 ∧
    SliceReader.sliceFromByteOffsets [0x61, 0xE9, 0x4E2D, 0x21] ⟨0, ⟨0, 4⟩⟩ [3, 1] = .error .slice ∧
    Straddles [0x61, 0xE9, 0x4E2D, 0x21] 3 1 :=
  ⟨by decide +kernel, ⟨[0x61, 0xE9], 0x4E2D, [0x21], rfl, by decide +kernel, by decide +kernel⟩,
    by decide +kernel, ⟨[0x61], 0xE9, [0x4E2D, 0x21], rfl, by decide +kernel, by decide +kernel⟩⟩

/-- Beyond these statements: runes without an encoding, for which ReadRune returns the size -1. In `a`, U+D800, `b`, the
sizes put `b` from 0 to 1, and these offsets give the three runes. -/
example : sizesOf (readerHistory [0x61, 0xD800, 0x62] (newSliceReader ⟨0, 3⟩) [.read, .read]).1 = 0 ∧
    SliceReader.sliceFromByteOffsets [0x61, 0xD800, 0x62] ⟨0, ⟨0, 3⟩⟩ [0, 1] = .ok [⟨0, 3⟩] := by decide +kernel

end Verif.Props
