import Verif.Model.Ansi
import Verif.Spec.Ansi

/-! # The scanner of control sequences, as a function on lists -/

namespace Verif.Proofs.Ansi
open Verif.Go Verif.Model Verif.Model.Ansi Verif.Spec.Ansi

/-- The scan of what follows `ESC [`: `k` digits of the current parameter have been read, `n` runes have
been counted. The result is the number of runes of the sequence, and its kind. -/
def seqScan (env : Env) : Nat → Bool → Bool → Nat → List Rune → Nat × Kind
  | _, _, zero, n, [] => (n, keyKind runeError zero)
  | k, first, zero, n, r :: rest =>
    if env.isDigit r then
      if k ≥ 2 then (n + 2, keyKind r (if first && r != 0x30 then false else zero))
      else seqScan env (k + 1) first (if first && r != 0x30 then false else zero) (n + 1) rest
    else if r == 0x3B || r == 0x3A then seqScan env 0 false zero (n + 1) rest
    else (n + 1, keyKind r zero)

/-- The sequence at the start of a text. -/
def decodeSeq (env : Env) : List Rune → Option (Nat × Kind)
  | a :: b :: rest => if a = esc ∧ b = openingBracket then some (seqScan env 0 true true 2 rest) else none
  | _ => none

/-! ## The reader -/

theorem readRune_some {mem : List Rune} {v : View} (hv : v.Valid mem) {p : Nat} {r : Rune}
    {rest : List Rune} (h : (v.elems mem).drop p = r :: rest) :
    SliceReader.readRune mem ⟨p, v⟩ = .ok (some (r, runeLen r), ⟨((p + 1 : Nat) : Int), v⟩) ∧
    (v.elems mem).drop (p + 1) = rest ∧ p < v.len := by
  have hl := View.elems_length hv
  have hp : p < (v.elems mem).length := by
    apply Classical.byContradiction
    intro hc
    rw [List.drop_eq_nil_of_le (by omega)] at h; cases h
  have hd := List.drop_eq_getElem_cons hp
  rw [hd] at h
  have h1 := (List.cons.inj h).1
  refine ⟨?_, (List.cons.inj h).2, by omega⟩
  unfold SliceReader.readRune View.get
  simp only
  rw [if_neg (by omega), index_ok hp, h1]; rfl

theorem readRune_none {mem : List Rune} {v : View} (hv : v.Valid mem) {p : Nat} (hp : p ≤ v.len)
    (h : (v.elems mem).drop p = []) :
    SliceReader.readRune mem ⟨p, v⟩ = .ok (none, ⟨p, v⟩) ∧ p = v.len := by
  have hl := View.elems_length hv
  have hp : (v.elems mem).length ≤ p := by simpa using h
  unfold SliceReader.readRune
  simp only
  rw [if_pos (by omega)]
  exact ⟨rfl, by omega⟩

theorem seek_start (v : View) (q : Int) (p : Nat) :
    (SliceReader.seek ⟨q, v⟩ p .start) = if p ≤ v.len then (some (p : Int), ⟨p, v⟩) else (none, ⟨q, v⟩) := by
  unfold SliceReader.seek
  simp only
  by_cases h : p ≤ v.len
  · rw [if_pos h, if_neg (by simp; omega)]
  · rw [if_neg h, if_pos (by simp; omega)]

theorem seek_here (v : View) (p : Nat) (hp : p ≤ v.len) (hlen : (v.len : Int) < 2 ^ 63) :
    SliceReader.seek ⟨p, v⟩ 0 .current = (some (p : Int), ⟨p, v⟩) := by
  have e : add64 (p : Int) 0 = p := by unfold add64; omega
  unfold SliceReader.seek
  simp only [e]
  rw [if_neg (by simp; omega)]

theorem seek_back (v : View) (p n : Nat) (hp : p ≤ v.len) (hlen : (v.len : Int) < 2 ^ 63) (hn : n ≤ p) :
    SliceReader.seek ⟨p, v⟩ (-(n : Int)) .current = (some ((p - n : Nat) : Int), ⟨((p - n : Nat) : Int), v⟩) := by
  have e : add64 (p : Int) (-(n : Int)) = ((p - n : Nat) : Int) := by unfold add64; omega
  unfold SliceReader.seek
  simp only [e]
  rw [if_neg (by simp; omega)]

theorem rest_at (mem : List Rune) (v : View) (hv : v.Valid mem) (p : Nat) (hp : p ≤ v.len) :
    SliceReader.rest mem ⟨p, v⟩ = .ok ⟨v.off + p, v.len - p⟩ := by
  unfold View.Valid at hv
  unfold SliceReader.rest View.sub
  simp only
  rw [if_pos (by omega)]
  simp

/-! ## The loops on digits and parameters -/

/-- What the loops have computed, in terms of the scan. -/
structure ScanOk (v : View) (base cnt : Nat) (res : Nat × Kind) (avail : Nat) (s : Scan) : Prop where
  kind : keyKind s.r s.hasZeroArg = res.2
  count : s.runeCount + (if s.eof then 0 else 1) = res.1
  next : s.nextStart = s.runeCount + base
  runes : s.rdr.runes = v
  at_end : res.1 > cnt + avail → s.rdr.offset = v.len

theorem not_sep_of_digit {env : Env} (hd : AsciiDigits env) {r : Rune} (h : env.isDigit r = true) :
    (r == 0x3B || r == 0x3A) = false := by
  apply Bool.eq_false_iff.mpr
  intro hc
  simp only [Bool.or_eq_true, beq_iff_eq] at hc
  rcases hc with e | e <;> subst e
  · have := (hd 0x3B (by decide) (by decide)).mp h; omega
  · have := (hd 0x3A (by decide) (by decide)).mp h; omega

theorem runeError_not_sep : (runeError == 0x3B || runeError == 0x3A) = false := by decide

theorem loops_spec (env : Env) (hd : AsciiDigits env) (mem : List Rune) (v : View) (hv : v.Valid mem)
    (base : Nat) : ∀ (rest : List Rune) (k : Nat) (first zero : Bool) (cnt fuel p : Nat) (s : Scan),
    k ≤ 2 → p ≤ v.len → (v.elems mem).drop p = rest → rest.length + 1 ≤ fuel →
    s.rdr = ⟨p, v⟩ → s.hasZeroArg = zero → s.runeCount = cnt → s.nextStart = cnt + base →
    ∃ s', (digitsLoop env mem first (3 - k) s >>= fun s => paramsLoop env mem fuel s) = .ok s' ∧
      ScanOk v base cnt (seqScan env k first zero cnt rest) rest.length s' := by
  intro rest
  induction rest with
  | nil =>
    intro k first zero cnt fuel p s hk hp hrest hfuel h1 h2 h3 h4
    obtain ⟨hr, hend⟩ := readRune_none hv hp hrest
    obtain ⟨n, hn⟩ : ∃ n, 3 - k = n + 1 := ⟨2 - k, by omega⟩
    obtain ⟨f, hf⟩ : ∃ f, fuel = f + 1 := ⟨fuel - 1, by simp at hfuel; omega⟩
    refine ⟨{ s with rdr := ⟨p, v⟩, r := runeError, eof := true }, ?_, ?_⟩
    · rw [hn, hf]
      simp only [digitsLoop, h1, hr, ok_bind, pure_eq_ok, paramsLoop, runeError_not_sep]
      rfl
    · constructor
      · simp [seqScan, h2]
      · simp [seqScan, h3]
      · simp [h4, h3]
      · rfl
      · intro h; simp [hend]
  | cons r rest ih =>
    intro k first zero cnt fuel p s hk hp hrest hfuel h1 h2 h3 h4
    obtain ⟨hr, hrest', hlt⟩ := readRune_some hv hrest
    obtain ⟨n, hn⟩ : ∃ n, 3 - k = n + 1 := ⟨2 - k, by omega⟩
    obtain ⟨f, hf⟩ : ∃ f, fuel = f + 1 := ⟨fuel - 1, by simp at hfuel; omega⟩
    rw [hn]
    cases hdig : env.isDigit r with
    | true =>
      by_cases hk2 : k ≥ 2
      · have hn0 : n = 0 := by omega
        subst hn0
        refine ⟨{ s with
          rdr := ⟨((p + 1 : Nat) : Int), v⟩, r := r, eof := false,
          hasZeroArg := if first && r != 0x30 then false else s.hasZeroArg,
          runeCount := s.runeCount + 1, nextStart := s.nextStart + 1 }, ?_, ?_⟩
        · rw [hf]
          simp only [digitsLoop, h1, hr, ok_bind, hdig, Bool.not_true, Bool.false_eq_true, if_false,
            paramsLoop, not_sep_of_digit hd hdig]
        · have e : seqScan env k first zero cnt (r :: rest) =
              (cnt + 2, keyKind r (if first && r != 0x30 then false else zero)) := by
            simp only [seqScan, hdig, if_true]
            rw [if_pos hk2]
          rw [e]
          constructor
          · simp only [h2]
          · simp only [h3]; simp; omega
          · simp only [h3, h4]; omega
          · rfl
          · intro h
            simp only [List.length_cons] at h
            have : rest = [] := List.eq_nil_of_length_eq_zero (by omega)
            rw [this] at hrest'
            have hl := View.elems_length hv
            have : (v.elems mem).length ≤ p + 1 := by simpa using hrest'
            simp only; omega
      · have e : seqScan env k first zero cnt (r :: rest) =
            seqScan env (k + 1) first (if first && r != 0x30 then false else zero) (cnt + 1) rest := by
          simp only [seqScan, hdig, if_true]
          rw [if_neg hk2]
        obtain ⟨s', e1, e2⟩ := ih (k + 1) first (if first && r != 0x30 then false else zero) (cnt + 1) fuel
          (p + 1) { s with
            rdr := ⟨((p + 1 : Nat) : Int), v⟩, r := r, eof := false,
            hasZeroArg := if first && r != 0x30 then false else s.hasZeroArg,
            runeCount := s.runeCount + 1, nextStart := s.nextStart + 1 }
          (by omega) (by omega) hrest' (by simp at hfuel ⊢; omega) rfl (by simp only [h2])
          (by simp only [h3]; omega) (by simp only [h4]; omega)
        refine ⟨s', ?_, ?_⟩
        · rw [← e1]
          have : 3 - (k + 1) = n := by omega
          rw [this]
          simp only [digitsLoop, h1, hr, ok_bind, hdig]
          rfl
        · rw [e]
          exact ⟨e2.kind, e2.count, e2.next, e2.runes, fun h => e2.at_end (by
            simp only [List.length_cons] at h; omega)⟩
    | false =>
      cases hsep : (r == 0x3B || r == 0x3A) with
      | true =>
        have e : seqScan env k first zero cnt (r :: rest) = seqScan env 0 false zero (cnt + 1) rest := by
          simp only [seqScan, hdig, hsep]
          rfl
        obtain ⟨s', e1, e2⟩ := ih 0 false zero (cnt + 1) f (p + 1)
          { s with rdr := ⟨((p + 1 : Nat) : Int), v⟩, r := r, eof := false,
                   runeCount := s.runeCount + 1, nextStart := s.nextStart + 1 }
          (by omega) (by omega) hrest' (by simp at hfuel; omega) rfl h2
          (by simp only [h3]; omega) (by simp only [h4]; omega)
        refine ⟨s', ?_, ?_⟩
        · rw [← e1, hf]
          simp only [digitsLoop, h1, hr, ok_bind, hdig, paramsLoop]
          simp only [Bool.not_false, if_true, pure_eq_ok, ok_bind, hsep]
          rfl
        · rw [e]
          exact ⟨e2.kind, e2.count, e2.next, e2.runes, fun h => e2.at_end (by
            simp only [List.length_cons] at h; omega)⟩
      | false =>
        have e : seqScan env k first zero cnt (r :: rest) = (cnt + 1, keyKind r zero) := by
          simp only [seqScan, hdig, hsep]
          rfl
        refine ⟨{ s with rdr := ⟨((p + 1 : Nat) : Int), v⟩, r := r, eof := false }, ?_, ?_⟩
        · rw [hf]
          simp only [digitsLoop, h1, hr, ok_bind, hdig]
          simp only [Bool.not_false, if_true, pure_eq_ok, ok_bind, paramsLoop, hsep]
          rfl
        · rw [e]
          constructor
          · simp only [h2]
          · simp only [h3]; simp
          · simp only [h3, h4]
          · rfl
          · intro h
            simp only [List.length_cons] at h; omega

/-! ## Facts on the scan -/

theorem seqScan_bounds (env : Env) : ∀ (rest : List Rune) (k : Nat) (first zero : Bool) (n : Nat),
    n ≤ (seqScan env k first zero n rest).1 ∧ (seqScan env k first zero n rest).1 ≤ n + rest.length + 1
  | [], k, first, zero, n => by simp [seqScan]
  | r :: rest, k, first, zero, n => by
    simp only [seqScan]
    split
    · split
      · simp
      · have := seqScan_bounds env rest (k + 1) first (if first && r != 0x30 then false else zero) (n + 1)
        simp only [List.length_cons]; omega
    · split
      · have := seqScan_bounds env rest 0 false zero (n + 1)
        simp only [List.length_cons]; omega
      · simp

/-- The scan exceeds the text only within a parameter of three digits; the kind is then "other". -/
theorem seqScan_overrun (env : Env) (hd : AsciiDigits env) : ∀ (rest pre ds : List Rune) (x : Rune)
    (first zero : Bool) (n : Nat),
    (x = 0x5B ∨ IsSep x) → (∀ r ∈ ds, env.isDigit r = true) → ds.length ≤ 2 →
    (seqScan env ds.length first zero n rest).1 = n + rest.length + 1 →
    EndsInThreeDigits env (pre ++ x :: ds ++ rest) ∧ (seqScan env ds.length first zero n rest).2 = .other
  | [], pre, ds, x, first, zero, n, hx, hds, hlen, h => by simp [seqScan] at h
  | r :: rest, pre, ds, x, first, zero, n, hx, hds, hlen, h => by
    simp only [seqScan] at h ⊢
    cases hdig : env.isDigit r with
    | true =>
      simp only [hdig, if_true] at h ⊢
      by_cases hk : ds.length ≥ 2
      · rw [if_pos hk] at h ⊢
        simp only [List.length_cons] at h
        have hr : rest = [] := List.eq_nil_of_length_eq_zero (by omega)
        subst hr
        match ds, hlen, hk, hds with
        | [d1, d2], _, _, hds =>
          refine ⟨⟨pre, x, d1, d2, r, by simp, hx, hds d1 (by simp), hds d2 (by simp), hdig⟩, ?_⟩
          have hne : ∀ c : Rune, 0 ≤ c → c < 128 → ¬ (0x30 ≤ c ∧ c ≤ 0x39) → (r == c) = false := by
            intro c h1 h2 h3
            apply Bool.eq_false_iff.mpr
            intro hc
            have : r = c := by simpa using hc
            subst this
            exact h3 ((hd r h1 h2).mp hdig)
          unfold keyKind
          rw [hne 0x73 (by decide) (by decide) (by decide), hne 0x68 (by decide) (by decide) (by decide),
            hne 0x75 (by decide) (by decide) (by decide), hne 0x6C (by decide) (by decide) (by decide),
            hne 0x6D (by decide) (by decide) (by decide)]
          rfl
      · rw [if_neg hk] at h ⊢
        have := seqScan_overrun env hd rest pre (ds ++ [r]) x first (if first && r != 0x30 then false else zero)
          (n + 1) hx (by
            intro y hy
            rcases List.mem_append.mp hy with hy | hy
            · exact hds y hy
            · rw [List.mem_singleton.mp hy]; exact hdig) (by simp; omega) (by
            simp only [List.length_append, List.length_cons, List.length_nil] at h ⊢
            rw [h]; omega)
        rw [List.length_append, List.length_singleton] at this
        refine ⟨?_, this.2⟩
        have h2 := this.1
        simpa using h2
    | false =>
      simp only [hdig] at h ⊢
      cases hsep : (r == 0x3B || r == 0x3A) with
      | true =>
        simp only [hsep, if_true] at h ⊢
        have hs : IsSep r := by simpa [IsSep] using hsep
        have := seqScan_overrun env hd rest (pre ++ x :: ds) [] r false zero (n + 1) (Or.inr hs) (by simp)
          (by simp) (by
            simp only [List.length_cons, List.length_nil] at h ⊢
            rw [show (seqScan env 0 false zero (n + 1) rest).1 = _ from by simpa using h]; omega)
        refine ⟨?_, by simpa using this.2⟩
        simpa using this.1
      | false =>
        simp [hsep] at h

/-- The runes of further parameters. -/
def moreRunes (more : List (Rune × List Rune)) : List Rune := more.flatMap (fun p => p.1 :: p.2)

/-- A start or stop sequence ends with a key code, after short parameters. -/
theorem seqScan_sound (env : Env) (hd : AsciiDigits env) : ∀ (rest : List Rune) (k : Nat) (first zero : Bool) (n : Nat),
    k ≤ 2 → (seqScan env k first zero n rest).2 ≠ .other →
    ∃ (ds : List Rune) (more : List (Rune × List Rune)) (key : Rune) (t : List Rune),
      rest = ds ++ moreRunes more ++ key :: t ∧
      (seqScan env k first zero n rest).1 = n + ds.length + (moreRunes more).length + 1 ∧
      k + ds.length ≤ 2 ∧ (∀ r ∈ ds, env.isDigit r = true) ∧
      (∀ p ∈ more, (IsSep p.1 ∧ ∀ r ∈ p.2, env.isDigit r = true) ∧ p.2.length ≤ 2) ∧
      (env.isDigit key = false ∧ ¬ IsSep key) ∧
      (seqScan env k first zero n rest).2 =
        keyKind key (if first then zero && ds.all (· == 0x30) else zero)
  | [], k, first, zero, n, _, h => by
    exfalso; apply h
    simp only [seqScan]
    rfl
  | r :: rest, k, first, zero, n, hk, h => by
    simp only [seqScan] at h ⊢
    cases hdig : env.isDigit r with
    | true =>
      simp only [hdig, if_true] at h ⊢
      by_cases hk2 : k ≥ 2
      · rw [if_pos hk2] at h
        exfalso; apply h
        have hne : ∀ c : Rune, 0 ≤ c → c < 128 → ¬ (0x30 ≤ c ∧ c ≤ 0x39) → (r == c) = false := by
          intro c h1 h2 h3
          apply Bool.eq_false_iff.mpr
          intro hc
          have : r = c := by simpa using hc
          subst this
          exact h3 ((hd r h1 h2).mp hdig)
        unfold keyKind
        simp only
        rw [hne 0x73 (by decide) (by decide) (by decide), hne 0x68 (by decide) (by decide) (by decide),
          hne 0x75 (by decide) (by decide) (by decide), hne 0x6C (by decide) (by decide) (by decide),
          hne 0x6D (by decide) (by decide) (by decide)]
        rfl
      · rw [if_neg hk2] at h ⊢
        obtain ⟨ds, more, key, t, e1, e2, e3, e4, e5, e6, e7⟩ := seqScan_sound env hd rest (k + 1) first _ (n + 1)
          (by omega) h
        refine ⟨r :: ds, more, key, t, by rw [e1]; rfl, by rw [e2]; simp only [List.length_cons]; omega,
          by simp only [List.length_cons]; omega, ?_, e5, e6, ?_⟩
        · intro y hy
          rcases List.mem_cons.mp hy with hy | hy
          · rw [hy]; exact hdig
          · exact e4 y hy
        · rw [e7]
          congr 1
          cases first
          · rfl
          · simp only [Bool.true_and, if_true, List.all_cons]
            by_cases hz : r = 0x30
            · subst hz; simp
            · have h1 : (r == 0x30) = false := by simpa using hz
              have h2 : (r != 0x30) = true := by simpa using hz
              simp [h1, h2]
    | false =>
      simp only [hdig] at h ⊢
      cases hsep : (r == 0x3B || r == 0x3A) with
      | true =>
        simp only [hsep, if_true] at h ⊢
        have hs : IsSep r := by simpa [IsSep] using hsep
        obtain ⟨ds, more, key, t, e1, e2, e3, e4, e5, e6, e7⟩ := seqScan_sound env hd rest 0 false zero (n + 1)
          (by omega) (by simpa using h)
        refine ⟨[], (r, ds) :: more, key, t, ?_, ?_, by simpa using hk, by simp, ?_, e6, ?_⟩
        · rw [e1]; simp [moreRunes]
        · simp only [Bool.false_eq_true, if_false]
          rw [e2]
          simp only [moreRunes, List.flatMap_cons, List.length_append, List.length_cons, List.length_nil]
          omega
        · intro p hp
          rcases List.mem_cons.mp hp with hp | hp
          · rw [hp]; exact ⟨⟨hs, e4⟩, by simpa using e3⟩
          · exact e5 p hp
        · simp only [Bool.false_eq_true, if_false]
          rw [e7]
          cases first <;> simp
      | false =>
        have hs : ¬ IsSep r := by
          intro hc
          have : (r == 0x3B || r == 0x3A) = true := by simpa [IsSep] using hc
          rw [this] at hsep; cases hsep
        refine ⟨[], [], r, rest, by simp [moreRunes], ?_, by simpa using hk, by simp, by simp, ⟨hdig, hs⟩, ?_⟩
        · simp [moreRunes]
        · cases first <;> simp

theorem seqScan_more (env : Env) (key : Rune) (t : List Rune) (hkey : env.isDigit key = false ∧ ¬ IsSep key)
    (hd : AsciiDigits env) :
    ∀ (more : List (Rune × List Rune)), (∀ p ∈ more, (IsSep p.1 ∧ ∀ r ∈ p.2, env.isDigit r = true) ∧ p.2.length ≤ 2) →
    ∀ (ds : List Rune) (k : Nat) (first zero : Bool) (n : Nat), k + ds.length ≤ 2 →
      (∀ r ∈ ds, env.isDigit r = true) →
      seqScan env k first zero n (ds ++ moreRunes more ++ key :: t) =
        (n + ds.length + (moreRunes more).length + 1,
          keyKind key (if first then zero && ds.all (· == 0x30) else zero)) := by
  have hnsep : (key == 0x3B || key == 0x3A) = false := by
    apply Bool.eq_false_iff.mpr
    intro hc
    exact hkey.2 (by simpa [IsSep] using hc)
  intro more
  induction more with
  | nil =>
    intro _ ds
    induction ds with
    | nil =>
      intro k first zero n hk _
      simp only [moreRunes, List.flatMap_nil, List.nil_append, seqScan, hkey.1, hnsep]
      cases first <;> simp
    | cons d ds ih =>
      intro k first zero n hk hds
      simp only [List.cons_append, seqScan, hds d (by simp), if_true]
      simp only [List.length_cons] at hk
      rw [if_neg (by omega), ih (k + 1) first _ (n + 1) (by omega) (fun r hr => hds r (by simp [hr]))]
      refine Prod.ext (by simp only [List.length_cons]; omega) ?_
      simp only
      congr 1
      cases first
      · rfl
      · simp only [Bool.true_and, if_true, List.all_cons]
        by_cases hz : d = 0x30
        · subst hz; simp
        · have h1 : (d == 0x30) = false := by simpa using hz
          have h2 : (d != 0x30) = true := by simpa using hz
          simp [h1, h2]
  | cons p more ihm =>
    intro hmore ds
    have hp := hmore p (by simp)
    have hsep : (p.1 == 0x3B || p.1 == 0x3A) = true := by simpa [IsSep] using hp.1.1
    have hpd : env.isDigit p.1 = false := by
      cases hc : env.isDigit p.1 with
      | false => rfl
      | true => rw [not_sep_of_digit hd hc] at hsep; cases hsep
    induction ds with
    | nil =>
      intro k first zero n hk _
      have := ihm (fun q hq => hmore q (by simp [hq])) p.2 0 false zero (n + 1) (by simpa using hp.2) hp.1.2
      simp only [moreRunes, List.flatMap_cons, List.nil_append, List.cons_append, seqScan, hpd, hsep, if_true,
        Bool.false_eq_true, if_false]
      simp only [moreRunes] at this
      rw [this]
      refine Prod.ext ?_ ?_
      · simp only [List.length_cons, List.length_append, List.length_nil]; omega
      · cases first <;> simp
    | cons d ds ih =>
      intro k first zero n hk hds
      simp only [List.cons_append, seqScan, hds d (by simp), if_true]
      simp only [List.length_cons] at hk
      rw [if_neg (by omega), ih (k + 1) first _ (n + 1) (by omega) (fun r hr => hds r (by simp [hr]))]
      refine Prod.ext (by simp only [List.length_cons]; omega) ?_
      simp only
      congr 1
      cases first
      · rfl
      · simp only [Bool.true_and, if_true, List.all_cons]
        by_cases hz : d = 0x30
        · subst hz; simp
        · have h1 : (d == 0x30) = false := by simpa using hz
          have h2 : (d != 0x30) = true := by simpa using hz
          simp [h1, h2]

end Verif.Proofs.Ansi
