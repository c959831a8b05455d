import Verif.Model.Scanner
import Verif.Spec.Lines

/-! # The scanner gives the lines of the file -/

namespace Verif.Proofs
open Verif.Go Verif.Model Verif.Spec

/-- What is left to scan. -/
def Scanner.content (s : Scanner) : List Nat := s.pending ++ s.rest

/-- Invariant of the scanner. -/
structure ScanInv (s : Scanner) : Prop where
  room : s.start + s.pending.length ≤ s.cap
  cap : s.cap ≤ 65536
  err : s.err = none ∨ (s.err = some .eof ∧ s.rest = [])

theorem newScanner_inv (data : List Nat) : ScanInv (newScanner data) :=
  ⟨by simp [newScanner], by simp [newScanner], Or.inl rfl⟩

theorem growCap_spec (cap : Nat) (h : cap < 65536) : cap < growCap cap ∧ growCap cap ≤ 65536 := by
  unfold growCap maxTokenSize
  split <;> omega

theorem scanFill_ok (s : Scanner) (h : ScanInv s) (he : s.err = none) (hp : s.pending.length ≤ 65535) :
    ∃ s', scanFill s = some s' ∧ ScanInv s' ∧ Scanner.content s' = Scanner.content s ∧
      ((s.rest = [] ∧ s'.err = some .eof ∧ s'.rest = []) ∨
        (s.rest ≠ [] ∧ s'.rest.length < s.rest.length ∧ s'.err = none)) := by
  obtain ⟨rest, cap, start, pending, err⟩ := s
  have hroom := h.room
  have hcap := h.cap
  simp only at hroom hcap he hp
  subst he
  unfold scanFill
  simp only
  -- the data may have been moved to the beginning of the buffer
  obtain ⟨st, hst, hst2, hst3⟩ : ∃ st, (if start > 0 ∧ (start + pending.length = cap ∨ start > cap / 2)
      then 0 else start) = st ∧ st + pending.length ≤ cap ∧ (st + pending.length = cap → st = 0) := by
    refine ⟨_, rfl, ?_, ?_⟩
    · split <;> omega
    · split
      · intro _; rfl
      · intro _; omega
  rw [hst]
  rw [if_neg (by unfold maxTokenSize; omega)]
  have hgrow : st + pending.length = cap → cap < growCap cap ∧ growCap cap ≤ 65536 := fun hf =>
    growCap_spec cap (by have := hst3 hf; omega)
  -- the room left in the buffer
  obtain ⟨c, hc⟩ : ∃ c, (if st + pending.length = cap then growCap cap else cap) = c := ⟨_, rfl⟩
  obtain ⟨b, hb⟩ : ∃ b, (if st + pending.length = cap then 0 else st) = b := ⟨_, rfl⟩
  have hcb : b + pending.length < c ∧ c ≤ 65536 := by
    by_cases hf : st + pending.length = cap
    · rw [if_pos hf] at hc hb
      have := hgrow hf; have := hst3 hf
      omega
    · rw [if_neg hf] at hc hb; omega
  rw [hc, hb]
  cases hr : rest with
  | nil =>
    simp only [List.length_nil, if_true]
    exact ⟨_, rfl, ⟨by simp; omega, hcb.2, Or.inr ⟨rfl, rfl⟩⟩, by simp [Scanner.content], Or.inl ⟨by simp, rfl, rfl⟩⟩
  | cons x rest =>
    rw [if_neg (by simp)]
    refine ⟨_, rfl, ⟨?_, hcb.2, Or.inl rfl⟩, ?_, Or.inr ⟨by simp, ?_, rfl⟩⟩
    · simp only [List.length_append, List.length_take]; omega
    · simp [Scanner.content]
    · simp only [List.length_drop, List.length_cons]; omega

theorem idxOf_take (l : List Nat) (x : Nat) (h : x ∈ l) :
    l.take (l.idxOf x) = l.takeWhile (· ≠ x) ∧ l.idxOf x = (l.takeWhile (· ≠ x)).length := by
  induction l with
  | nil => simp at h
  | cons a l ih =>
    by_cases ha : a = x
    · subst ha; simp
    · have hx : x ∈ l := by
        rcases List.mem_cons.mp h with h | h
        · exact absurd h.symm ha
        · exact h
      have := ih hx
      have hidx : (a :: l).idxOf x = l.idxOf x + 1 := by
        rw [List.idxOf_cons]
        have : (a == x) = false := by simp [ha]
        simp [this]
      rw [hidx]
      simp only [List.take_succ_cons, List.takeWhile_cons, ne_eq, ha, not_false_eq_true, decide_true,
        if_true, List.length_cons]
      exact ⟨by rw [this.1], by rw [this.2]⟩

theorem takeWhile_append_mem (l m : List Nat) (x : Nat) (h : x ∈ l) :
    (l ++ m).takeWhile (· ≠ x) = l.takeWhile (· ≠ x) := by
  induction l with
  | nil => simp at h
  | cons a l ih =>
    by_cases ha : a = x
    · subst ha; simp
    · have hx : x ∈ l := by
        rcases List.mem_cons.mp h with h | h
        · exact absurd h.symm ha
        · exact h
      have := ih hx
      simp [ha] at this ⊢
      exact this

theorem takeWhile_append_not_mem (l m : List Nat) (x : Nat) (h : x ∉ l) :
    (l ++ m).takeWhile (· ≠ x) = l ++ m.takeWhile (· ≠ x) := by
  rw [List.takeWhile_append_of_pos]
  intro a ha
  simp
  rintro rfl; exact h ha

/-- One call of Scan. -/
theorem scanLoop_spec : ∀ (fuel : Nat) (s : Scanner), ScanInv s →
    (s.rest.length + 2 ≤ fuel ∨ (s.err = some .eof ∧ 1 ≤ fuel)) →
    ((Scanner.content s).takeWhile (· ≠ 0x0A)).length ≤ 65535 →
    ∃ r s', scanLoop fuel s = (r, s') ∧ ScanInv s' ∧
      ((Scanner.content s = [] ∧ r = none ∧ Scanner.content s' = []) ∨
        (Scanner.content s ≠ [] ∧ r = some (dropCR ((Scanner.content s).takeWhile (· ≠ 0x0A))) ∧
          Scanner.content s' =
            (Scanner.content s).drop (((Scanner.content s).takeWhile (· ≠ 0x0A)).length + 1))) := by
  intro fuel
  induction fuel with
  | zero => intro s _ hf; omega
  | succ fuel ih =>
    intro s hi hf hl
    have hroom := hi.room
    have hcap := hi.cap
    simp only [scanLoop]
    by_cases hmem : 0x0A ∈ s.pending
    · -- a whole line is in the buffer
      have hpos : s.pending.length > 0 := List.length_pos_of_mem hmem
      have hne : Scanner.content s ≠ [] := by
        intro h; simp [Scanner.content] at h; simp [h.1] at hpos
      obtain ⟨h1, h2⟩ := idxOf_take s.pending 0x0A hmem
      have h3 := takeWhile_append_mem s.pending s.rest 0x0A hmem
      have h4 := List.idxOf_lt_length_of_mem hmem
      rw [if_pos (Or.inl hpos)]
      have hsl : scanLines s.pending (s.err ≠ none) =
          (s.pending.idxOf 0x0A + 1, some (dropCR (s.pending.take (s.pending.idxOf 0x0A)))) := by
        unfold scanLines
        rw [if_neg (by simp; intro _ h; simp [h] at hpos), if_pos hmem]
      rw [hsl]
      refine ⟨_, _, rfl, ?_, Or.inr ⟨hne, ?_, ?_⟩⟩
      · refine ⟨?_, hcap, hi.err⟩
        simp only [List.length_drop]; omega
      · simp only [Scanner.content]; rw [h3, h1]
      · simp only [Scanner.content]
        rw [h3, ← h2, List.drop_append_of_le_length (by omega)]
    · have hlen : s.pending.length ≤ 65535 := by
        rw [Scanner.content, takeWhile_append_not_mem _ _ _ hmem, List.length_append] at hl
        omega
      rcases hi.err with he | ⟨he, hr⟩
      · -- more is needed
        have hsl : (if s.pending.length > 0 ∨ s.err ≠ none then scanLines s.pending (s.err ≠ none)
            else (0, none)) = (0, none) := by
          split
          · unfold scanLines
            simp [he, hmem]
          · rfl
        rw [hsl]
        simp only [he, ne_eq, not_true_eq_false, if_false]
        obtain ⟨s1, h1, h2, h3, h4⟩ := scanFill_ok s hi he hlen
        rw [h1]
        simp only
        rw [← h3] at hl ⊢
        refine ih s1 h2 ?_ hl
        rcases h4 with ⟨h5, h6, h7⟩ | ⟨h5, h6, h7⟩
        · right
          refine ⟨h6, ?_⟩
          rcases hf with hf | ⟨hf, _⟩
          · omega
          · rw [he] at hf; cases hf
        · left
          rcases hf with hf | ⟨hf, _⟩
          · omega
          · rw [he] at hf; cases hf
      · -- the end of the file
        have hcont : Scanner.content s = s.pending := by simp [Scanner.content, hr]
        rw [hcont] at hl ⊢
        rw [if_pos (Or.inr (by simp [he]))]
        by_cases hp : s.pending = []
        · have hsl : scanLines s.pending (s.err ≠ none) = (0, none) := by
            unfold scanLines; simp [he, hp]
          rw [hsl]
          simp only [he, ne_eq, reduceCtorEq, not_false_eq_true, if_true]
          exact ⟨_, _, rfl, ⟨by simp, hcap, Or.inr ⟨rfl, hr⟩⟩, Or.inl ⟨hp, rfl, by simp [Scanner.content, hr]⟩⟩
        · have hsl : scanLines s.pending (s.err ≠ none) =
              (s.pending.length, some (dropCR s.pending)) := by
            unfold scanLines
            rw [if_neg (by simp [hp]), if_neg hmem, if_pos (by simp [he])]
          rw [hsl]
          have ht : s.pending.takeWhile (· ≠ 0x0A) = s.pending := by
            have := takeWhile_append_not_mem s.pending [] 0x0A hmem
            simpa using this
          refine ⟨_, _, rfl, ⟨?_, hcap, Or.inr ⟨he, hr⟩⟩, Or.inr ⟨hp, ?_, ?_⟩⟩
          · simp; omega
          · rw [ht]
          · rw [ht]; simp [Scanner.content, hr]

theorem scan_spec (s : Scanner) (hi : ScanInv s)
    (hl : ((Scanner.content s).takeWhile (· ≠ 0x0A)).length ≤ 65535) :
    ∃ r s', scan s = (r, s') ∧ ScanInv s' ∧
      ((Scanner.content s = [] ∧ r = none ∧ Scanner.content s' = []) ∨
        (Scanner.content s ≠ [] ∧ r = some (dropCR ((Scanner.content s).takeWhile (· ≠ 0x0A))) ∧
          Scanner.content s' =
            (Scanner.content s).drop (((Scanner.content s).takeWhile (· ≠ 0x0A)).length + 1))) :=
  scanLoop_spec (s.rest.length + 2) s hi (Or.inl (Nat.le_refl _)) hl

/-- The same, on a given content. -/
theorem scan_content (s : Scanner) (hi : ScanInv s) (c : List Nat) (hc : Scanner.content s = c)
    (hl : (c.takeWhile (· ≠ 0x0A)).length ≤ 65535) (hne : c ≠ []) :
    ∃ s', scan s = (some (dropCR (c.takeWhile (· ≠ 0x0A))), s') ∧ ScanInv s' ∧
      Scanner.content s' = c.drop ((c.takeWhile (· ≠ 0x0A)).length + 1) := by
  subst hc
  obtain ⟨r, s', h1, h2, h3 | ⟨_, h3, h4⟩⟩ := scan_spec s hi hl
  · exact absurd h3.1 hne
  · subst h3; exact ⟨s', h1, h2, h4⟩

theorem dropCR_ne (l : List Nat) (h : l.getLast? ≠ some 0x0D) : dropCR l = l := by
  unfold dropCR; rw [if_neg h]

theorem dropCR_append (l : List Nat) : dropCR (l ++ [0x0D]) = l := by
  unfold dropCR; simp

theorem takeWhile_line (l d : List Nat) (h : 0x0A ∉ l) :
    (l ++ 0x0A :: d).takeWhile (· ≠ 0x0A) = l := by
  rw [takeWhile_append_not_mem _ _ _ h]; simp

theorem Fits.takeWhile {c : List Nat} (h : FitsBuffer c) : (c.takeWhile (· ≠ 0x0A)).length ≤ 65535 := by
  refine h [] _ (c.dropWhile (· ≠ 0x0A)) ?_ ?_
  · rw [List.nil_append, List.takeWhile_append_dropWhile]
  · intro hm
    have := List.all_takeWhile (p := fun x => decide (x ≠ 0x0A)) (l := c)
    rw [List.all_eq_true] at this
    have := this _ hm
    simp at this

theorem Fits.right {c d : List Nat} (h : FitsBuffer (c ++ d)) : FitsBuffer d := by
  intro pre line post e hl
  exact h (c ++ pre) line post (by rw [e]; simp) hl

/-- What Scan gives when `ls` are the lines left: the first one, if any. -/
def Scanned (s : Scanner) (n : Nat) : List (List Nat) → Prop
  | [] => ∃ s', scan s = (none, s') ∧ ScanInv s' ∧ Scanner.content s' = []
  | l :: ls => ∃ s', scan s = (some l, s') ∧ ScanInv s' ∧ FileOf (Scanner.content s') ls ∧
      FitsBuffer (Scanner.content s') ∧ (Scanner.content s').length < n

/-- A stretch without line feed lies in the first line or after it. -/
theorem stretch_cons {pre line post l d : List Nat} (h : l ++ 0x0A :: d = pre ++ line ++ post) (hl : 0x0A ∉ line) :
    line.length ≤ l.length ∨ ∃ pre', d = pre' ++ line ++ post := by
  rw [List.append_assoc] at h
  rcases List.append_eq_append_iff.mp h with ⟨a, h1, h2⟩ | ⟨a, h1, h2⟩
  · -- the stretch starts after the first line
    cases a with
    | nil =>
      cases line with
      | nil => left; simp
      | cons x line =>
        simp only [List.nil_append, List.cons_append, List.cons.injEq] at h2
        exact absurd (by rw [h2.1]; simp) hl
    | cons x a =>
      simp only [List.cons_append, List.cons.injEq] at h2
      exact Or.inr ⟨a, by rw [h2.2]; simp⟩
  · rcases List.append_eq_append_iff.mp h2 with ⟨b, h3, h4⟩ | ⟨b, h3, h4⟩
    · left; rw [h1, h3]; simp; omega
    · cases b with
      | nil => left; rw [h1, h3]; simp
      | cons x b =>
        simp only [List.cons_append, List.cons.injEq] at h4
        exact absurd (by rw [h3, h4.1]; simp) hl

theorem fits_of_lines {data : List Nat} {ls : List (List Nat)} (h : FileOf data ls) (hlen : ∀ l ∈ ls, l.length ≤ 65534) :
    FitsBuffer data := by
  induction h with
  | nil =>
    intro pre line post e _
    have := congrArg List.length e
    simp at this
    omega
  | open_ l _ _ _ =>
    intro pre line post e _
    have := congrArg List.length e
    have := hlen l (by simp)
    simp at *
    omega
  | openCR l _ =>
    intro pre line post e _
    have := congrArg List.length e
    have := hlen l (by simp)
    simp at *
    omega
  | @lf l d ls h1 h2 hd ih =>
    intro pre line post e hl
    have := hlen l (by simp)
    rcases stretch_cons e hl with h | ⟨pre', h⟩
    · omega
    · exact ih (fun x hx => hlen x (by simp [hx])) pre' line post h hl
  | @crlf l d ls h1 hd ih =>
    intro pre line post e hl
    have := hlen l (by simp)
    have e' : (l ++ [0x0D]) ++ 0x0A :: d = pre ++ line ++ post := by rw [← e]; simp
    rcases stretch_cons e' hl with h | ⟨pre', h⟩
    · simp at h; omega
    · exact ih (fun x hx => hlen x (by simp [hx])) pre' line post h hl

theorem fits_nil : FitsBuffer [] := by
  intro pre line post e _
  have := congrArg List.length e
  simp at this
  omega

theorem scan_file {s : Scanner} {ls : List (List Nat)} (hi : ScanInv s)
    (hf : FileOf (Scanner.content s) ls) (hfit : FitsBuffer (Scanner.content s)) :
    Scanned s (Scanner.content s).length ls := by
  generalize hc : Scanner.content s = c at hf hfit ⊢
  have hw := Fits.takeWhile hfit
  cases hf with
  | nil =>
    obtain ⟨r, s', h1, h2, h3 | ⟨h3, _⟩⟩ := scan_spec s hi (by rw [hc]; simp)
    · obtain ⟨_, rfl, h4⟩ := h3
      exact ⟨s', h1, h2, h4⟩
    · exact absurd hc h3
  | open_ l h hne hcr =>
    have ht : c.takeWhile (· ≠ 0x0A) = c := by
      have := takeWhile_append_not_mem c [] 0x0A h
      simpa using this
    have key := scan_content s hi c hc hw hne
    rw [ht, dropCR_ne c hcr, List.drop_eq_nil_of_le (by omega)] at key
    obtain ⟨s', h1, h2, h3⟩ := key
    refine ⟨s', h1, h2, ?_, ?_, ?_⟩
    · rw [h3]; exact .nil
    · rw [h3]; exact fits_nil
    · rw [h3]; exact List.length_pos_iff.mpr hne
  | openCR l h =>
    have ht : (l ++ [0x0D]).takeWhile (· ≠ 0x0A) = l ++ [0x0D] := by
      rw [takeWhile_append_not_mem l _ 0x0A h]; simp
    have key := scan_content s hi _ hc hw (by simp)
    rw [ht, dropCR_append, List.drop_eq_nil_of_le (by omega)] at key
    obtain ⟨s', h1, h2, h3⟩ := key
    refine ⟨s', h1, h2, ?_, ?_, ?_⟩
    · rw [h3]; exact .nil
    · rw [h3]; exact fits_nil
    · rw [h3]; simp
  | @lf l d ls h hcr hd =>
    have e : (l ++ 0x0A :: d).drop (l.length + 1) = d := by simp [← List.drop_drop]
    have key := scan_content s hi _ hc hw (by simp)
    rw [takeWhile_line l d h, dropCR_ne l hcr, e] at key
    obtain ⟨s', h1, h2, h3⟩ := key
    refine ⟨s', h1, h2, ?_, ?_, ?_⟩
    · rw [h3]; exact hd
    · rw [h3]; exact Fits.right (c := l ++ [0x0A]) (by simpa using hfit)
    · rw [h3]; simp; omega
  | @crlf l d ls h hd =>
    have e : l ++ 0x0D :: 0x0A :: d = (l ++ [0x0D]) ++ 0x0A :: d := by simp
    have h' : 0x0A ∉ l ++ [0x0D] := by simp [h]
    have e' : ((l ++ [0x0D]) ++ 0x0A :: d).drop ((l ++ [0x0D]).length + 1) = d := by
      rw [← List.drop_drop, List.drop_left]; simp
    have key := scan_content s hi _ hc hw (by simp)
    rw [e, takeWhile_line _ d h', dropCR_append, e'] at key
    obtain ⟨s', h1, h2, h3⟩ := key
    refine ⟨s', h1, h2, ?_, ?_, ?_⟩
    · rw [h3]; exact hd
    · rw [h3]; exact Fits.right (c := l ++ [0x0D, 0x0A]) (by simpa using hfit)
    · rw [h3]; simp; omega

theorem scanExceptions_spec (env : Env) : ∀ (fuel : Nat) (s : Scanner) (ls : List (List Nat))
    (dict : Dictionary), ScanInv s → FileOf (Scanner.content s) ls → FitsBuffer (Scanner.content s) →
    (Scanner.content s).length < fuel →
    ∃ s', scanExceptions env fuel s dict = (loadExceptions env (ls.map stringRunes) dict, s') ∧
      ScanInv s' ∧ Scanner.content s' = [] := by
  intro fuel
  induction fuel with
  | zero => intro s ls dict _ _ _ h; omega
  | succ fuel ih =>
    intro s ls dict hi hf hlen hfu
    have hs := scan_file hi hf hlen
    cases ls with
    | nil =>
      obtain ⟨s', h1, h2, h3⟩ := hs
      exact ⟨s', by simp [scanExceptions, h1, loadExceptions], h2, h3⟩
    | cons l ls =>
      obtain ⟨s', h1, h2, h3, hlen', h4⟩ := hs
      simp only [scanExceptions, h1, List.map_cons, loadExceptions]
      exact ih s' ls _ h2 h3 hlen' (by omega)

theorem scanPatterns_spec (env : Env) : ∀ (fuel : Nat) (s : Scanner) (ls : List (List Nat))
    (dict : Dictionary), ScanInv s → FileOf (Scanner.content s) ls → FitsBuffer (Scanner.content s) →
    (Scanner.content s).length < fuel →
    scanPatterns env fuel s dict = loadLines env (ls.map stringRunes) dict := by
  intro fuel
  induction fuel with
  | zero => intro s ls dict _ _ _ h; omega
  | succ fuel ih =>
    intro s ls dict hi hf hlen hfu
    have hs := scan_file hi hf hlen
    cases ls with
    | nil =>
      obtain ⟨s', h1, h2, h3⟩ := hs
      simp [scanPatterns, h1, loadLines]
    | cons l ls =>
      obtain ⟨s', h1, h2, h3, hlen', h4⟩ := hs
      simp only [scanPatterns, h1, List.map_cons, loadLines]
      split
      · exact ih s' ls _ h2 h3 hlen' (by omega)
      · split
        · obtain ⟨s2, h5, h6, h7⟩ := scanExceptions_spec env (fuel + 1) s' ls dict h2 h3 hlen' (by omega)
          rw [h5]
          simp only
          have hn : FileOf (Scanner.content s2) [] := by rw [h7]; exact .nil
          rw [ih s2 [] _ h6 hn (by rw [h7]; exact fits_nil) (by rw [h7]; simp; omega)]
          rfl
        · split
          · exact ih s' ls _ h2 h3 hlen' (by omega)
          · cases fieldsFunc (stringRunes l) isSpace with
            | error e => rfl
            | ok ps =>
              simp only [ok_bind]
              exact ih s' ls _ h2 h3 hlen' (by omega)

/-- Loading a file is loading its lines. -/
theorem loadFile_fits (env : Env) (id : List Rune) (data : List Nat) (ls : List (List Nat))
    (hf : FileOf data ls) (hlen : FitsBuffer data) :
    loadFile env id data = loadPatterns env id (ls.map stringRunes) := by
  unfold loadFile loadPatterns
  have hc : Scanner.content (newScanner data) = data := by simp [Scanner.content, newScanner]
  exact scanPatterns_spec env _ _ ls _ (newScanner_inv data) (by rw [hc]; exact hf) (by rw [hc]; exact hlen)
    (by rw [hc]; omega)

theorem loadFile_lines (env : Env) (id : List Rune) (data : List Nat) (ls : List (List Nat))
    (hf : FileOf data ls) (hlen : ∀ l ∈ ls, l.length ≤ 65534) :
    loadFile env id data = loadPatterns env id (ls.map stringRunes) :=
  loadFile_fits env id data ls hf (fits_of_lines hf hlen)

/-! ## Lines that are too long -/

theorem scanLoop_long : ∀ (fuel : Nat) (s : Scanner), ScanInv s → s.err = none →
    s.rest.length + 2 ≤ fuel → 65536 ≤ ((Scanner.content s).takeWhile (· ≠ 0x0A)).length →
    ∃ s', scanLoop fuel s = (none, s') ∧ s'.err = some .tooLong ∧ s'.pending = (Scanner.content s).take 65536 ∧
      0x0A ∉ s'.pending := by
  intro fuel
  induction fuel with
  | zero => intro s _ _ hf; omega
  | succ fuel ih =>
    intro s hi he hf hl
    have hroom := hi.room
    have hcap := hi.cap
    have hmem : 0x0A ∉ s.pending := by
      intro hm
      rw [Scanner.content, takeWhile_append_mem _ _ _ hm] at hl
      obtain ⟨_, h2⟩ := idxOf_take s.pending 0x0A hm
      have := List.idxOf_lt_length_of_mem hm
      omega
    have hsl : (if s.pending.length > 0 ∨ s.err ≠ none then scanLines s.pending (s.err ≠ none)
        else (0, none)) = (0, none) := by
      split
      · unfold scanLines
        simp [he, hmem]
      · rfl
    simp only [scanLoop]
    rw [hsl]
    simp only [he, ne_eq, not_true_eq_false, if_false]
    by_cases hp : s.pending.length ≤ 65535
    · obtain ⟨s1, h1, h2, h3, h4⟩ := scanFill_ok s hi he hp
      rw [h1]
      simp only
      rw [← h3] at hl
      rcases h4 with ⟨h5, h6, h7⟩ | ⟨h5, h6, h7⟩
      · exfalso
        have h8 : Scanner.content s1 = s.pending := by rw [h3]; simp [Scanner.content, h5]
        have h9 := List.Sublist.length_le (List.takeWhile_sublist (l := Scanner.content s1) (p := fun x => decide (x ≠ 0x0A)))
        rw [h8] at h9 hl
        omega
      · have := ih s1 h2 h7 (by omega) hl
        rw [h3] at this
        exact this
    · have hn : scanFill s = none := by
        unfold scanFill
        have h0 : s.start = 0 := by omega
        have h1 : (if s.start > 0 ∧ (s.start + s.pending.length = s.cap ∨ s.start > s.cap / 2) then 0
            else s.start) = 0 := by split <;> omega
        simp only [h1]
        rw [if_pos (by unfold maxTokenSize; omega)]
      rw [hn]
      refine ⟨_, rfl, rfl, ?_, hmem⟩
      have : s.pending.length = 65536 := by omega
      rw [Scanner.content, ← this, List.take_left]

/-- While a whole line is left, the end of the file is not met. -/
theorem scanLoop_err : ∀ (fuel : Nat) (s : Scanner), ScanInv s → s.err = none →
    0x0A ∈ Scanner.content s → ((Scanner.content s).takeWhile (· ≠ 0x0A)).length ≤ 65535 →
    (scanLoop fuel s).2.err = none := by
  intro fuel
  induction fuel with
  | zero => intro s _ he _ _; exact he
  | succ fuel ih =>
    intro s hi he hm hl
    simp only [scanLoop]
    by_cases hmem : 0x0A ∈ s.pending
    · have hpos : s.pending.length > 0 := List.length_pos_of_mem hmem
      rw [if_pos (Or.inl hpos)]
      have hsl : scanLines s.pending (s.err ≠ none) =
          (s.pending.idxOf 0x0A + 1, some (dropCR (s.pending.take (s.pending.idxOf 0x0A)))) := by
        unfold scanLines
        rw [if_neg (by simp [he]), if_pos hmem]
      rw [hsl]
      exact he
    · have hlen : s.pending.length ≤ 65535 := by
        rw [Scanner.content, takeWhile_append_not_mem _ _ _ hmem, List.length_append] at hl
        omega
      have hsl : (if s.pending.length > 0 ∨ s.err ≠ none then scanLines s.pending (s.err ≠ none)
          else (0, none)) = (0, none) := by
        split
        · unfold scanLines
          simp [he, hmem]
        · rfl
      rw [hsl]
      simp only [he, ne_eq, not_true_eq_false, if_false]
      obtain ⟨s1, h1, h2, h3, h4⟩ := scanFill_ok s hi he hlen
      rw [h1]
      simp only
      rcases h4 with ⟨h5, _⟩ | ⟨h5, h6, h7⟩
      · exfalso
        simp only [Scanner.content, h5, List.append_nil] at hm
        exact hmem hm
      · exact ih s1 h2 h7 (by rw [h3]; exact hm) (by rw [h3]; exact hl)

/-- After the error, Scan gives the beginning of the line that is too long, once. -/
theorem scan_tooLong (s : Scanner) (he : s.err = some .tooLong) (hm : 0x0A ∉ s.pending) (hne : s.pending ≠ []) :
    ∃ s', scan s = (some (dropCR s.pending), s') ∧ s'.err = some .tooLong ∧ s'.pending = [] := by
  have hpos : s.pending.length > 0 := List.length_pos_iff.mpr hne
  have hsl : scanLines s.pending (s.err ≠ none) = (s.pending.length, some (dropCR s.pending)) := by
    unfold scanLines
    rw [if_neg (by simp; intro _; exact hne), if_neg hm, if_pos (by simp [he])]
  refine ⟨{ s with start := s.start + s.pending.length, pending := s.pending.drop s.pending.length }, ?_, he, by simp⟩
  unfold scan
  rw [show s.rest.length + 2 = (s.rest.length + 1) + 1 by omega]
  simp only [scanLoop]
  rw [if_pos (Or.inl hpos), hsl]

/-- Then, it gives nothing. -/
theorem scan_after (s : Scanner) (he : s.err = some .tooLong) (hp : s.pending = []) :
    ∃ s', scan s = (none, s') ∧ s'.err = some .tooLong ∧ s'.pending = [] := by
  refine ⟨{ s with start := 0, pending := [] }, ?_, he, rfl⟩
  unfold scan
  rw [show s.rest.length + 2 = (s.rest.length + 1) + 1 by omega]
  simp [scanLoop, scanLines, he, hp]

/-- A whole line is read while the rest of the file is not. -/
theorem scan_closed {good d : List Nat} {l : List Nat} {ls : List (List Nat)} (hf : FileOf good (l :: ls))
    (hend : good.getLast? = some 0x0A) (hfit : FitsBuffer good) (s : Scanner) (hi : ScanInv s) (he : s.err = none)
    (hc : Scanner.content s = good ++ d) :
    ∃ s' good', scan s = (some l, s') ∧ ScanInv s' ∧ s'.err = none ∧ Scanner.content s' = good' ++ d ∧
      FileOf good' ls ∧ (good' = [] ∨ good'.getLast? = some 0x0A) ∧ FitsBuffer good' ∧ good'.length < good.length := by
  have core : ∀ (raw good' : List Nat), good = raw ++ 0x0A :: good' → 0x0A ∉ raw → dropCR raw = l → FileOf good' ls →
      ∃ s' good', scan s = (some l, s') ∧ ScanInv s' ∧ s'.err = none ∧ Scanner.content s' = good' ++ d ∧
      FileOf good' ls ∧ (good' = [] ∨ good'.getLast? = some 0x0A) ∧ FitsBuffer good' ∧ good'.length < good.length := by
    intro raw good' e hraw hdrop hf'
    have hlen : raw.length ≤ 65535 := by
      refine hfit [] raw (0x0A :: good') ?_ hraw
      rw [e]; simp
    have hc' : Scanner.content s = raw ++ 0x0A :: (good' ++ d) := by rw [hc, e]; simp
    have hd' : (raw ++ 0x0A :: (good' ++ d)).drop (raw.length + 1) = good' ++ d := by simp [← List.drop_drop]
    have key := scan_content s hi _ hc'
    rw [takeWhile_line _ _ hraw, hdrop, hd'] at key
    obtain ⟨s', h1, h2, h3⟩ := key hlen (by simp)
    have he' : s'.err = none := by
      have := scanLoop_err (s.rest.length + 2) s hi he (by rw [hc']; simp)
        (by rw [hc', takeWhile_line _ _ hraw]; exact hlen)
      have hs : scanLoop (s.rest.length + 2) s = (some l, s') := h1
      rw [hs] at this
      exact this
    refine ⟨s', good', h1, h2, he', h3, hf', ?_, ?_, ?_⟩
    · cases good' with
      | nil => exact Or.inl rfl
      | cons x g =>
        right
        rw [e, List.getLast?_append] at hend
        simpa [List.getLast?_cons_cons] using hend
    · exact Fits.right (c := raw ++ [0x0A]) (by rw [e] at hfit; simpa using hfit)
    · rw [e]; simp; omega
  cases hf with
  | open_ l h hne hcr =>
    exact absurd (List.mem_of_getLast? hend) h
  | openCR l h => simp at hend
  | @lf l g ls h hcr hd => exact core l g rfl h (dropCR_ne l hcr) hd
  | @crlf l g ls h hd => exact core (l ++ [0x0D]) g (by simp) (by simp [h]) (dropCR_append l) hd

theorem file_nonempty {good : List Nat} {l : List Nat} {ls : List (List Nat)} (hf : FileOf good (l :: ls))
    (hend : good = [] ∨ good.getLast? = some 0x0A) : good.getLast? = some 0x0A := by
  rcases hend with rfl | h
  · generalize hg : ([] : List Nat) = g at hf
    cases hf with
    | open_ l h hne hcr => exact absurd hg.symm hne
    | openCR l h => simp at hg
    | lf l h hcr hd => simp at hg
    | crlf l h hd => simp at hg
  · exact h

theorem file_empty {good : List Nat} (hf : FileOf good []) : good = [] := by
  cases hf with
  | nil => rfl

theorem loadLines_end (env : Env) (s : Scanner) (he : s.err = some .tooLong) (hp : s.pending = []) (fuel : Nat)
    (dict : Dictionary) : scanPatterns env fuel s dict = .ok dict ∧ ∃ s', s'.err = some .tooLong ∧ s'.pending = [] ∧
      scanExceptions env fuel s dict = (dict, s') := by
  cases fuel with
  | zero => exact ⟨rfl, s, he, hp, rfl⟩
  | succ n =>
    obtain ⟨s', h, h2, h3⟩ := scan_after s he hp
    exact ⟨by simp [scanPatterns, h], s', h2, h3, by simp [scanExceptions, h]⟩

section
variable (env : Env) (d : List Nat) (hd : 65536 ≤ (d.takeWhile (· ≠ 0x0A)).length)
include hd

theorem long_ne : d.take 65536 ≠ [] := by
  intro e
  have h9 := List.Sublist.length_le (List.takeWhile_sublist (l := d) (p := fun x => decide (x ≠ 0x0A)))
  have := congrArg List.length e
  rw [List.length_take, List.length_nil] at this
  omega

theorem scanExceptions_long : ∀ (fuel : Nat) (good : List Nat) (ls : List (List Nat)) (s : Scanner) (dict : Dictionary),
    FileOf good ls → (good = [] ∨ good.getLast? = some 0x0A) → FitsBuffer good → ScanInv s → s.err = none →
    Scanner.content s = good ++ d → good.length < fuel →
    ∃ s', scanExceptions env fuel s dict = (loadExceptions env (ls.map stringRunes) dict, s') ∧
      s'.err = some .tooLong ∧ s'.pending = d.take 65536 ∧ 0x0A ∉ s'.pending := by
  intro fuel
  induction fuel with
  | zero => intro good ls s dict _ _ _ _ _ _ h; omega
  | succ fuel ih =>
    intro good ls s dict hf hend hfit hi he hc hfu
    cases ls with
    | nil =>
      rw [file_empty hf, List.nil_append] at hc
      obtain ⟨s', h, h2, h3, h4⟩ := scanLoop_long (s.rest.length + 2) s hi he (Nat.le_refl _) (by rw [hc]; exact hd)
      have h' : scan s = (none, s') := h
      rw [hc] at h3
      exact ⟨s', by simp [scanExceptions, h', loadExceptions], h2, h3, h4⟩
    | cons l ls =>
      obtain ⟨s', good', h1, h2, h3, h4, h5, h6, h7, h8⟩ := scan_closed hf (file_nonempty hf hend) hfit s hi he hc
      simp only [scanExceptions, h1, List.map_cons, loadExceptions]
      exact ih good' ls s' _ h5 h6 h7 h2 h3 h4 (by omega)

/-- Loading a file with a line that is too long: the lines before it; then, if they have the marker, the beginning of
this line, which is read as patterns. -/
theorem scanPatterns_long : ∀ (fuel : Nat) (good : List Nat) (ls : List (List Nat)) (s : Scanner) (dict : Dictionary),
    FileOf good ls → (good = [] ∨ good.getLast? = some 0x0A) → FitsBuffer good → ScanInv s → s.err = none →
    Scanner.content s = good ++ d → good.length + 2 ≤ fuel →
    scanPatterns env fuel s dict =
      if ls.any (fun l => !hasPrefix (stringRunes l) messageSection && hasPrefix (stringRunes l) exceptionsSection) then
        loadLines env (ls.map stringRunes) dict >>= loadLines env [stringRunes (dropCR (d.take 65536))]
      else loadLines env (ls.map stringRunes) dict := by
  intro fuel
  induction fuel with
  | zero => intro good ls s dict _ _ _ _ _ _ h; omega
  | succ fuel ih =>
    intro good ls s dict hf hend hfit hi he hc hfu
    cases ls with
    | nil =>
      rw [file_empty hf, List.nil_append] at hc
      obtain ⟨s', h, _⟩ := scanLoop_long (s.rest.length + 2) s hi he (Nat.le_refl _) (by rw [hc]; exact hd)
      have h' : scan s = (none, s') := h
      simp [scanPatterns, h', loadLines]
    | cons l ls =>
      obtain ⟨s', good', h1, h2, h3, h4, h5, h6, h7, h8⟩ := scan_closed hf (file_nonempty hf hend) hfit s hi he hc
      simp only [scanPatterns, h1, List.map_cons, loadLines, List.any_cons]
      cases hmsg : hasPrefix (stringRunes l) messageSection with
      | true =>
        simp only [if_true, Bool.not_true, Bool.false_and, Bool.false_or]
        exact ih good' ls s' _ h5 h6 h7 h2 h3 h4 (by omega)
      | false =>
        simp only [Bool.false_eq_true, if_false, Bool.not_false, Bool.true_and]
        cases hex : hasPrefix (stringRunes l) exceptionsSection with
        | true =>
          simp only [if_true, Bool.true_or]
          obtain ⟨s2, k1, k2, k3, k4⟩ := scanExceptions_long env d hd (fuel + 1) good' ls s' dict h5 h6 h7 h2 h3 h4 (by omega)
          rw [k1]
          simp only [ok_bind]
          -- the beginning of the long line
          obtain ⟨fuel, rfl⟩ : ∃ n, fuel = n + 1 := ⟨fuel - 1, by omega⟩
          obtain ⟨s3, m1, m2, m3⟩ := scan_tooLong s2 k2 k4 (by rw [k3]; exact long_ne d hd)
          rw [k3] at m1
          simp only [scanPatterns, m1]
          split
          · exact (loadLines_end env s3 m2 m3 _ _).1
          · split
            · obtain ⟨_, s4, n1, n2, n3⟩ := loadLines_end env s3 m2 m3 (fuel + 1) (loadExceptions env (ls.map stringRunes) dict)
              rw [n3]
              exact (loadLines_end env s4 n1 n2 _ _).1
            · split
              · exact (loadLines_end env s3 m2 m3 _ _).1
              · cases fieldsFunc (stringRunes (dropCR (d.take 65536))) isSpace with
                | error e => rfl
                | ok ps =>
                  simp only [ok_bind]
                  exact (loadLines_end env s3 m2 m3 _ _).1
        | false =>
          simp only [Bool.false_eq_true, if_false, Bool.false_or]
          split
          · exact ih good' ls s' _ h5 h6 h7 h2 h3 h4 (by omega)
          · cases fieldsFunc (stringRunes l) isSpace with
            | error e => simp
            | ok ps =>
              simp only [ok_bind]
              exact ih good' ls s' _ h5 h6 h7 h2 h3 h4 (by omega)

end

end Verif.Proofs
