import Verif.Proofs.Shipped
import Verif.Proofs.Hyphenator
import Verif.Proofs.Patterns

/-! # Words and the patterns of a checked file -/

namespace Verif.Proofs
open Verif.Go Verif.Model Verif.Spec

/-! ## Only the patterns that occur in a word matter -/

theorem isPatternLoop_congr (env : Env) (p1 p2 : Trie (List Int)) :
    ∀ (letters frag : List Rune) (result : List (List Int)),
      (∀ n, 1 ≤ n → n ≤ letters.length →
        p1.get (frag ++ (letters.map env.toLower).take n) = p2.get (frag ++ (letters.map env.toLower).take n)) →
      isPatternLoop env p1 letters frag result = isPatternLoop env p2 letters frag result := by
  intro letters
  induction letters with
  | nil => intro frag result _; rfl
  | cons c rest ih =>
    intro frag result h
    have h1 := h 1 (by omega) (by simp)
    simp only [List.map_cons, List.take_succ_cons, List.take_zero] at h1
    have h2 : ∀ n, 1 ≤ n → n ≤ rest.length →
        p1.get ((frag ++ [env.toLower c]) ++ (rest.map env.toLower).take n) =
          p2.get ((frag ++ [env.toLower c]) ++ (rest.map env.toLower).take n) := by
      intro n hn hr
      have := h (n + 1) (by omega) (by simp; omega)
      simpa using this
    simp only [isPatternLoop]
    rw [h1]
    cases p2.get (frag ++ [env.toLower c]) with
    | none => exact ih _ _ h2
    | some v => exact ih _ _ h2

theorem isPattern_congr (env : Env) (p1 p2 : Trie (List Int)) (word : List Rune) (i : Nat)
    (hi : i < word.length)
    (h : ∀ pre frag post, frag ≠ [] → dotted env.toLower word = pre ++ frag ++ post →
      p1.get frag = p2.get frag) :
    isPattern env p1 i word = isPattern env p2 i word := by
  have main : ∀ (start : Nat) (f0 pre : List Rune), start ≤ word.length →
      pre ++ f0 ++ ((word.drop start).map env.toLower ++ [0x2E]) = dotted env.toLower word →
      isPatternLoop env p1 (word.drop start) f0 [] = isPatternLoop env p2 (word.drop start) f0 [] ∧
      p1.get ((isPatternLoop env p2 (word.drop start) f0 []).1 ++ [0x2E]) =
        p2.get ((isPatternLoop env p2 (word.drop start) f0 []).1 ++ [0x2E]) := by
    intro start f0 pre hs he
    refine ⟨isPatternLoop_congr env p1 p2 _ _ _ ?_, ?_⟩
    · intro n h1 h2
      apply h pre _ (((word.drop start).map env.toLower).drop n ++ [0x2E])
      · intro hn
        have := congrArg List.length hn
        simp at this h2
        omega
      · rw [← he]
        simp only [List.append_assoc]
        rw [← List.append_assoc (List.take n _), List.take_append_drop]
    · have e := (isPatternLoop_spec env p2 (word.drop start) f0 []).1
      rw [e]
      apply h pre _ []
      · simp
      · rw [← he]; simp
  unfold isPattern
  by_cases h0 : i = 0
  · subst h0
    simp only [if_true]
    obtain ⟨m1, m2⟩ := main 0 [0x2E] [] (by omega) (by simp [dotted])
    rw [m1]
    simp only [m2]
  · simp only [if_neg h0]
    obtain ⟨m1, m2⟩ := main (i - 1) [] (0x2E :: (word.take (i - 1)).map env.toLower) (by omega) (by
      simp only [dotted, List.append_nil, List.cons_append]
      rw [← List.append_assoc, ← List.map_append, List.take_append_drop])
    rw [m1]
    simp only [m2]

/-- BreakWord depends only on the patterns that occur in ".word.", and on the exceptions for the word. -/
theorem breakWord_congr (env : Env) (d1 d2 : Dictionary) (o : HOptions) (word : List Rune)
    (h : ∀ pre frag post, frag ≠ [] → dotted env.toLower word = pre ++ frag ++ post →
      d1.patterns.get frag = d2.patterns.get frag)
    (he : d1.exceptions.get word = d2.exceptions.get word) :
    hyphenatorBreakWord env d1 o word = hyphenatorBreakWord env d2 o word := by
  have hloop : ∀ (n i : Nat) (ps : List Int), i + n ≤ word.length →
      patternLoop env d1.patterns word n i ps = patternLoop env d2.patterns word n i ps := by
    intro n
    induction n with
    | zero => intro i ps _; rfl
    | succ n ih =>
      intro i ps hi
      simp only [patternLoop]
      rw [isPattern_congr env d1.patterns d2.patterns word i (by omega) h]
      cases hb : (isPattern env d2.patterns i word) with
      | mk r b =>
        simp only
        split
        · cases mergeBreakPoints ps r i with
          | error e => rfl
          | ok ps1 => simp only [ok_bind]; exact ih _ _ (by omega)
        · exact ih _ _ (by omega)
  unfold hyphenatorBreakWord
  simp only
  rw [he, hloop word.length 0 _ (by omega)]

theorem isPatternLoop_env (e1 e2 : Env) (p : Trie (List Int)) : ∀ (letters frag : List Rune)
    (result : List (List Int)), (∀ r ∈ letters, e1.toLower r = e2.toLower r) →
      isPatternLoop e1 p letters frag result = isPatternLoop e2 p letters frag result := by
  intro letters
  induction letters with
  | nil => intro frag result _; rfl
  | cons c rest ih =>
    intro frag result h
    have hr : ∀ r ∈ rest, e1.toLower r = e2.toLower r := fun r hr => h r (by simp [hr])
    simp only [isPatternLoop]
    rw [h c (by simp)]
    cases p.get (frag ++ [e2.toLower c]) with
    | none => exact ih _ _ hr
    | some v => exact ih _ _ hr

/-- BreakWord uses the Unicode functions only to put the letters of the word in lower case. -/
theorem breakWord_env (e1 e2 : Env) (d : Dictionary) (o : HOptions) (word : List Rune)
    (h : ∀ r ∈ word, e1.toLower r = e2.toLower r) :
    hyphenatorBreakWord e1 d o word = hyphenatorBreakWord e2 d o word := by
  have hp : ∀ i, isPattern e1 d.patterns i word = isPattern e2 d.patterns i word := by
    intro i
    have hl : ∀ k frag, isPatternLoop e1 d.patterns (word.drop k) frag [] =
        isPatternLoop e2 d.patterns (word.drop k) frag [] := fun k frag =>
      isPatternLoop_env e1 e2 _ _ _ _ fun r hr => h r (List.mem_of_mem_drop hr)
    unfold isPattern
    by_cases h0 : i = 0
    · simp only [h0, if_true, hl]
    · simp only [if_neg h0, hl]
  have hloop : ∀ (n i : Nat) (ps : List Int),
      patternLoop e1 d.patterns word n i ps = patternLoop e2 d.patterns word n i ps := by
    intro n
    induction n with
    | zero => intro i ps; rfl
    | succ n ih =>
      intro i ps
      simp only [patternLoop]
      rw [hp i]
      cases hb : (isPattern e2 d.patterns i word) with
      | mk r b =>
        simp only
        split
        · cases mergeBreakPoints ps r i with
          | error e => rfl
          | ok ps1 => simp only [ok_bind]; exact ih _ _
        · exact ih _ _
  unfold hyphenatorBreakWord
  simp only
  rw [hloop]

/-! ## Consecutive parts -/

theorem cutAt_adjacent (word : List Rune) : ∀ (cuts : List Nat) (prev : Nat),
    cuts.Pairwise (· < ·) → (∀ c ∈ cuts, prev < c ∧ c < word.length) →
    ∀ ps p q qs, cutAt word prev cuts = ps ++ p :: q :: qs →
      ∃ c ∈ cuts, p.getLast? = word[c - 1]? ∧ q.head? = word[c]? := by
  intro cuts
  induction cuts with
  | nil =>
    intro prev _ _ ps p q qs h
    have := congrArg List.length h
    simp [cutAt] at this
    omega
  | cons c cs ih =>
    intro prev hp hb ps p q qs h
    rw [List.pairwise_cons] at hp
    have hc := hb c (by simp)
    have hcs : ∀ x ∈ cs, c < x ∧ x < word.length := fun x hx => ⟨hp.1 x hx, (hb x (by simp [hx])).2⟩
    cases ps with
    | nil =>
      simp only [cutAt, List.nil_append, List.cons.injEq] at h
      obtain ⟨h1, h2⟩ := h
      refine ⟨c, by simp, ?_, ?_⟩
      · rw [← h1, List.getLast?_eq_getElem?]
        simp only [List.length_take, List.length_drop]
        rw [List.getElem?_take, if_pos (by omega), List.getElem?_drop]
        congr 1; omega
      · cases cs with
        | nil =>
          simp only [cutAt, List.cons.injEq] at h2
          rw [← h2.1]; simp
        | cons d cs =>
          have hd := hcs d (by simp)
          simp only [cutAt, List.cons.injEq] at h2
          rw [← h2.1, List.head?_eq_getElem?, List.getElem?_take, if_pos (by omega), List.getElem?_drop]
          simp
    | cons x ps =>
      simp only [cutAt, List.cons_append, List.cons.injEq] at h
      obtain ⟨d, hd, h3⟩ := ih c hp.2 hcs ps p q qs h.2
      exact ⟨d, by simp [hd], h3⟩

/-! ## Gaps that no pattern opens -/

/-- In a pattern with these letters and values, every value of a gap that may lie between a letter of `px`
and one of `py` is even or less than `e`. The first argument tells whether what precedes is in `px`. -/
def gapsOk (px py : Nat → Bool) (e : Nat) : Bool → List Nat → List Nat → Bool
  | _, _, [] => true
  | prev, [], v :: _ => !prev || (Nat.beq (v % 2) 0 || Nat.blt v e)
  | prev, c :: cs, v :: vs => (!(prev && py c) || (Nat.beq (v % 2) 0 || Nat.blt v e)) && gapsOk px py e (px c) cs vs

theorem gapsOk_sound (px py : Nat → Bool) (e : Nat) : ∀ (ls vs : List Nat) (prev : Bool),
    gapsOk px py e prev ls vs = true → ∀ (j v : Nat), vs[j]? = some v → j ≤ ls.length →
      (if j = 0 then prev = true else ∃ c, ls[j - 1]? = some c ∧ px c = true) →
      (∀ c, ls[j]? = some c → py c = true) → v % 2 = 0 ∨ v < e := by
  have hv : ∀ v : Nat, (Nat.beq (v % 2) 0 || Nat.blt v e) = true → v % 2 = 0 ∨ v < e := by
    intro v h
    rw [Bool.or_eq_true, Nat.beq_eq, Nat.blt_eq] at h
    exact h
  intro ls
  induction ls with
  | nil =>
    intro vs prev h j v hj hl hpx hpy
    have h0 : j = 0 := by simpa using hl
    subst h0
    cases vs with
    | nil => simp at hj
    | cons u vs =>
      simp at hj hpx
      subst hj
      simp only [gapsOk, hpx] at h
      exact hv _ (by simpa using h)
  | cons c cs ih =>
    intro vs prev h j v hj hl hpx hpy
    cases vs with
    | nil => simp at hj
    | cons u vs =>
      simp only [gapsOk, Bool.and_eq_true] at h
      cases j with
      | zero =>
        simp at hj hpx
        subst hj
        have := hpy c (by simp)
        rw [hpx, this] at h
        exact hv _ (by simpa using h.1)
      | succ j =>
        refine ih vs (px c) h.2 j v (by simpa using hj) (by simpa using hl) ?_ ?_
        · simp only [Nat.add_one_ne_zero, if_false, Nat.add_sub_cancel] at hpx
          split
          · rename_i h0; subst h0; simpa using hpx
          · rename_i h0
            obtain ⟨m, rfl⟩ : ∃ m, j = m + 1 := ⟨j - 1, by omega⟩
            simpa using hpx
        · intro d hd; exact hpy d (by simpa using hd)

/-- No break between a letter of `Px` and one of `Py`: some pattern gives this gap the value `e` or more,
and no pattern gives it an odd value that is as large. -/
theorem never_between (P : Patterns) (px py : Nat → Bool) (e : Nat) (Px Py : Rune → Prop)
    (hPx : ∀ n : Nat, Px n → px n = true) (hPy : ∀ n : Nat, Py n → py n = true)
    (hk : ∀ key vals, P key = some vals → ∃ ls vs : List Nat, key = toInts ls ∧ vals = toInts vs ∧
      vs.length ≤ ls.length + 1 ∧ gapsOk px py e true ls vs = true)
    (hbase : ∀ x y : Rune, Px x → Py y → ∃ vals, ∃ u : Int, (e : Int) ≤ u ∧
      ((P [x, y] = some vals ∧ vals[1]? = some u) ∨ (P [x] = some vals ∧ vals[1]? = some u) ∨
        (P [y] = some vals ∧ vals[0]? = some u)))
    (w pre post : List Rune) (x y : Rune) (hw : w = pre ++ x :: y :: post) (hx : Px x) (hy : Py y) (v : Int)
    (hv : GapValue P w (pre.length + 1) v) : v % 2 = 0 := by
  -- the value is at least `e`
  have hge : (e : Int) ≤ v := by
    obtain ⟨vals, u, hu, h | h | h⟩ := hbase x y hx hy
    · exact Int.le_trans hu (hv.greatest pre.length vals 1 u
        ⟨pre, [x, y], post, by simp [hw], rfl, by simp, h.1⟩ h.2 rfl)
    · exact Int.le_trans hu (hv.greatest pre.length vals 1 u
        ⟨pre, [x], y :: post, by simp [hw], rfl, by simp, h.1⟩ h.2 rfl)
    · exact Int.le_trans hu (hv.greatest (pre.length + 1) vals 0 u
        ⟨pre ++ [x], [y], post, by simp [hw], by simp, by simp, h.1⟩ h.2 rfl)
  rcases hv.attained with h0 | ⟨a, vals, j, ho, hj, hg⟩
  · subst h0; rfl
  · obtain ⟨pr, frag, po, h1, h2, h3, h4⟩ := ho
    obtain ⟨ls, vs, rfl, rfl, hlen, hgap⟩ := hk frag vals h4
    have hjv : ∃ n : Nat, vs[j]? = some n ∧ v = (n : Int) := by
      unfold toInts at hj
      rw [List.getElem?_map] at hj
      obtain ⟨n, h5, h6⟩ := Option.map_eq_some_iff.mp hj
      exact ⟨n, h5, h6.symm⟩
    obtain ⟨n, hn, rfl⟩ := hjv
    have hjl : j < vs.length := (List.getElem?_eq_some_iff.mp hn).1
    -- the letters around the gap
    have hlet : ∀ i (c : Nat), ls[i]? = some c → w[a + i]? = some (c : Int) := by
      intro i c hc
      have hil : i < ls.length := (List.getElem?_eq_some_iff.mp hc).1
      rw [h1, List.append_assoc, List.getElem?_append_right (by omega),
        List.getElem?_append_left (by simp [toInts]; omega), ← h2]
      simp [toInts, hc]
    have hwx : w[pre.length]? = some x := by rw [hw]; simp
    have hwy : w[pre.length + 1]? = some y := by rw [hw]; simp
    have := gapsOk_sound px py e ls vs true hgap j n hn (by omega) (by
      split
      · rfl
      · have hin : j - 1 < ls.length := by omega
        refine ⟨ls[j - 1], List.getElem?_eq_getElem hin, ?_⟩
        have := hlet (j - 1) _ (List.getElem?_eq_getElem hin)
        rw [show a + (j - 1) = pre.length by omega, hwx] at this
        apply hPx
        rw [← Option.some.inj this]; exact hx) (by
      intro c hc
      have := hlet j c hc
      rw [hg, hwy] at this
      apply hPy
      rw [← Option.some.inj this]; exact hy)
    omega

/-! ## Loaded files -/

theorem toInts_inj {a b : List Nat} (h : toInts a = toInts b) : a = b := by
  have := congrArg (List.map Int.toNat) h
  simpa [toInts, List.map_map, Function.comp_def] using this

/-- What is known of a dictionary loaded from a checked file: its patterns were checked, and all those of
the file are there. Letters and values are in reverse. -/
structure Loaded (k : List Nat → List Nat → Bool) (env : Env) (body : List (Nat × Nat)) (dict : Dictionary) :
    Prop where
  entries : ∀ key vals, dict.patterns.get key = some vals → ∃ ls vs, key = toInts ls.reverse ∧
    vals = toInts vs.reverse ∧ vs.length ≤ ls.length + 1 ∧ k ls vs = true
  present : ∀ c ∈ body, ∀ l ∈ cutLines (pieceBytes c) [], ∀ w ∈ words (stringRunes l),
    ∃ vals, dict.patterns.get (readPattern env w).1 = some vals

theorem lastDef_mem {es : List (List Rune × List Int)} {key : List Rune} {vals : List Int}
    (h : lastDef es key = some vals) : (key, vals) ∈ es := by
  unfold lastDef at h
  obtain ⟨e, he, hv⟩ := Option.map_eq_some_iff.mp h
  have hm := List.mem_of_find?_eq_some he
  have hk : e.1 = key := by simpa using List.find?_some he
  rw [List.mem_reverse] at hm
  subst hk; subst hv
  exact hm

theorem lastDef_some {es : List (List Rune × List Int)} {e : List Rune × List Int} (h : e ∈ es) :
    ∃ vals, lastDef es e.1 = some vals := by
  unfold lastDef
  cases hf : es.reverse.find? (fun x => x.1 == e.1) with
  | none =>
    rw [List.find?_eq_none] at hf
    exact absurd (hf e (List.mem_reverse.mpr h)) (by simp)
  | some x => exact ⟨x.2, rfl⟩

theorem loaded_file (k : List Nat → List Nat → Bool) (head tail : Nat × Nat) (body : List (Nat × Nat))
    (hb : body.all (pieceOk k) = true) (hh : frameOk head = true) (ht : frameOk tail = true)
    (hhc : ∀ l ∈ cutLines (pieceBytes head) [], isMarker (stringRunes l) = false ∧
      isComment (stringRunes l) = true)
    (htc : ∀ l ∈ ((cutLines (pieceBytes tail) []).map stringRunes).takeWhile (fun l => !isMarker l),
      isComment l = true) (env : Env) (he : UsualRunes env) (id : List Rune) :
    ∃ dict, loadFile env id (packedBytes (head :: (body ++ [tail]))) = .ok dict ∧
      Loaded k env body dict ∧
      (∀ key, dict.exceptions.get key =
        lastDef (exceptionEntries env ((cutLines (pieceBytes tail) []).map stringRunes)) key) := by
  obtain ⟨_, dict, h1, h2, h3⟩ := packed_file k head tail body hb hh ht hhc htc env id
  obtain ⟨_, b2⟩ := bodyOk_sound k body hb
  refine ⟨dict, h1, ⟨?_, ?_⟩, h3⟩
  · intro key vals hg
    rw [h2] at hg
    obtain ⟨w, hw, he1⟩ := List.mem_map.mp (lastDef_mem hg)
    obtain ⟨r, hr, hwr⟩ := List.mem_flatMap.mp hw
    obtain ⟨l, hl, rfl⟩ := List.mem_map.mp hr
    obtain ⟨ls, vs, e1, e2, e3⟩ := (b2 l hl).1.entries w hwr
    rw [e3 env he] at he1
    simp only [Prod.mk.injEq] at he1
    exact ⟨ls, vs, he1.1.symm, he1.2.symm, e2, e1⟩
  · intro c hc l hl w hw
    rw [h2]
    apply lastDef_some (e := readPattern env w)
    apply List.mem_map.mpr
    refine ⟨w, List.mem_flatMap.mpr ⟨stringRunes l, List.mem_map.mpr ⟨l, ?_, rfl⟩, hw⟩, rfl⟩
    exact List.mem_flatMap.mpr ⟨c, hc, hl⟩

/-- The pairs of letters `px`, `py` have a pattern of their own with a value of `e` or more between them, if
they have a pattern (letters and values in reverse). -/
def pairOk (px py : Nat → Bool) (e : Nat) : List Nat → List Nat → Bool
  | [y, x], vs =>
    bif px x && py y then
      (match vs.reverse with
        | _ :: u :: _ => Nat.ble e u
        | _ => false)
    else true
  | _, _ => true

theorem pairOk_sound (px py : Nat → Bool) (e x y : Nat) (vs : List Nat) (hx : px x = true) (hy : py y = true)
    (h : pairOk px py e [y, x] vs = true) : ∃ u : Nat, e ≤ u ∧ vs.reverse[1]? = some u := by
  simp only [pairOk, hx, hy, Bool.and_self, cond_true] at h
  split at h
  · rename_i a u rest he
    rw [he]
    exact ⟨u, by simpa using h, rfl⟩
  · cases h

/-- No part ends between the letters of a group: the values of the patterns of a loaded file. -/
theorem loaded_pair {k : List Nat → List Nat → Bool} {env : Env} {body : List (Nat × Nat)} {dict : Dictionary}
    (h : Loaded k env body dict) (xs ys : List Nat) (e : Nat)
    (hk : ∀ ls vs, k ls vs = true → gapsOk xs.contains ys.contains e true ls.reverse vs.reverse = true ∧
      pairOk xs.contains ys.contains e ls vs = true)
    (hpres : ∀ x ∈ xs, ∀ y ∈ ys, ∃ vals, dict.patterns.get (toInts [x, y]) = some vals)
    (w pre post : List Rune) (x y : Rune) (hw : w = pre ++ x :: y :: post) (hx : x ∈ toInts xs)
    (hy : y ∈ toInts ys) (v : Int) (hv : GapValue (fun s => dict.patterns.get s) w (pre.length + 1) v) :
    v % 2 = 0 := by
  have hmem : ∀ (l : List Nat) (n : Nat), (n : Int) ∈ toInts l → l.contains n = true := by
    intro l n hn
    unfold toInts at hn
    obtain ⟨m, h1, h2⟩ := List.mem_map.mp hn
    have : m = n := by exact_mod_cast h2
    subst this
    simpa using h1
  refine never_between (fun s => dict.patterns.get s) xs.contains ys.contains e (· ∈ toInts xs) (· ∈ toInts ys)
    (hmem xs) (hmem ys) ?_ ?_ w pre post x y hw hx hy v hv
  · intro key vals hg
    obtain ⟨ls, vs, h1, h2, h3, h4⟩ := h.entries key vals hg
    exact ⟨ls.reverse, vs.reverse, h1, h2, by simpa using h3, (hk ls vs h4).1⟩
  · intro x y hx hy
    obtain ⟨m, hm1, rfl⟩ := List.mem_map.mp hx
    obtain ⟨n, hn1, rfl⟩ := List.mem_map.mp hy
    obtain ⟨vals, hg⟩ := hpres m hm1 n hn1
    obtain ⟨ls, vs, h1, h2, h3, h4⟩ := h.entries _ vals hg
    have hls : ls = [n, m] := by
      have := congrArg List.reverse (toInts_inj h1)
      simpa using this.symm
    subst hls
    obtain ⟨u, h5, h6⟩ := pairOk_sound _ _ e m n vs (hmem xs m hx) (hmem ys n hy) (hk _ vs h4).2
    refine ⟨vals, u, by exact_mod_cast h5, Or.inl ⟨by simpa [toInts] using hg, ?_⟩⟩
    rw [h2]; unfold toInts
    rw [List.getElem?_map, h6]; rfl

/-! ## Single words -/

/-- `as` is a prefix of `bs`. -/
def preNat : List Nat → List Nat → Bool
  | [], _ => true
  | _ :: _, [] => false
  | a :: as, b :: bs => bif Nat.beq a b then preNat as bs else false

/-- `l` occurs in the list. -/
def infNat (l : List Nat) : List Nat → Bool
  | [] => preNat l []
  | b :: bs => bif preNat l (b :: bs) then true else infNat l bs

theorem preNat_append (a b : List Nat) : preNat a (a ++ b) = true := by
  induction a with
  | nil => cases b <;> rfl
  | cons x a ih =>
    have : Nat.beq x x = true := by rw [Nat.beq_eq]
    simp only [List.cons_append, preNat, this, cond_true]
    exact ih

theorem infNat_append (p a b : List Nat) : infNat a (p ++ (a ++ b)) = true := by
  induction p with
  | nil =>
    have := preNat_append a b
    simp only [List.nil_append]
    cases h : a ++ b with
    | nil => rw [h] at this; exact this
    | cons x l =>
      rw [h] at this
      simp only [infNat, this, cond_true]
  | cons x p ih =>
    simp only [List.cons_append, infNat, ih]
    cases preNat a (x :: (p ++ (a ++ b))) <;> rfl

/-- A pattern that occurs in the text `w` is in the table (all in reverse). -/
def tableOk (w : List Nat) (tbl : List (List Nat × List Nat)) (ls vs : List Nat) : Bool :=
  bif infNat ls w then tbl.any (fun e => decide (e.1 = ls) && decide (e.2 = vs)) else true

/-- The dictionary with the patterns of a table. -/
def tableDict (tbl : List (List Nat × List Nat)) : Dictionary :=
  ⟨.empty, putAll (tbl.map fun e => (toInts e.1.reverse, toInts e.2.reverse)) .empty, []⟩

/-- A word is broken as by the patterns of the file that occur in it. -/
theorem loaded_word {k : List Nat → List Nat → Bool} {env : Env} {body : List (Nat × Nat)} {dict : Dictionary}
    (h : Loaded k env body dict) (w : List Nat) (tbl : List (List Nat × List Nat))
    (hk : ∀ ls vs, k ls vs = true → tableOk w tbl ls vs = true)
    (hpres : ∀ e ∈ tbl, ∃ vals, dict.patterns.get (toInts e.1.reverse) = some vals)
    (huniq : ∀ e ∈ tbl, (tableDict tbl).patterns.get (toInts e.1.reverse) = some (toInts e.2.reverse))
    (word : List Rune) (hword : dotted env.toLower word = toInts w.reverse)
    (hexc : dict.exceptions.get word = none) (o : HOptions) :
    hyphenatorBreakWord env dict o word = hyphenatorBreakWord env (tableDict tbl) o word := by
  apply breakWord_congr
  · intro pre frag post hne hd
    have hsmall : ∀ vals, (tableDict tbl).patterns.get frag = some vals →
        ∃ e ∈ tbl, frag = toInts e.1.reverse := by
      intro vals hv
      unfold tableDict at hv
      simp only [putAll_get, Trie.get_empty] at hv
      have hv' : lastDef (tbl.map fun e => (toInts e.1.reverse, toInts e.2.reverse)) frag = some vals := by
        simpa using hv
      obtain ⟨e, he, heq⟩ := List.mem_map.mp (lastDef_mem hv')
      simp only [Prod.mk.injEq] at heq
      exact ⟨e, he, heq.1.symm⟩
    cases hg : dict.patterns.get frag with
    | some vals =>
      obtain ⟨ls, vs, rfl, rfl, _, hkk⟩ := h.entries frag vals hg
      have ht := hk ls vs hkk
      have hinf : infNat ls w = true := by
        rw [hword] at hd
        have : ∃ p q : List Nat, w.reverse = p ++ ls.reverse ++ q := by
          unfold toInts at hd
          obtain ⟨pq, q, e1, e2, e3⟩ := List.map_eq_append_iff.mp hd
          obtain ⟨p, m, e4, e5, e6⟩ := List.map_eq_append_iff.mp e2
          refine ⟨p, q, ?_⟩
          rw [e1, e4, show m = ls.reverse from toInts_inj e6]
        obtain ⟨p, q, e⟩ := this
        have e' : w = q.reverse ++ (ls ++ p.reverse) := by
          have := congrArg List.reverse e
          simpa using this
        rw [e']
        exact infNat_append _ _ _
      unfold tableOk at ht
      rw [hinf, cond_true, List.any_eq_true] at ht
      obtain ⟨e, he, hee⟩ := ht
      simp at hee
      obtain ⟨rfl, rfl⟩ := hee
      exact (huniq e he).symm
    | none =>
      cases hs : (tableDict tbl).patterns.get frag with
      | none => rfl
      | some vals =>
        obtain ⟨e, he, rfl⟩ := hsmall vals hs
        obtain ⟨v, hv⟩ := hpres e he
        rw [hv] at hg; cases hg
  · rw [hexc]; simp [tableDict, Trie.get_empty]

theorem readPatternLoop_env (e1 e2 : Env) : ∀ (w : List Rune) (wd : Bool) (ls : List Rune) (vs : List Int),
    (∀ r ∈ w, e1.isDigit r = e2.isDigit r ∧ e1.toLower r = e2.toLower r) →
      readPatternLoop e1 w wd ls vs = readPatternLoop e2 w wd ls vs := by
  intro w
  induction w with
  | nil => intro wd ls vs _; rfl
  | cons c w ih =>
    intro wd ls vs h
    obtain ⟨h1, h2⟩ := h c (by simp)
    have hw : ∀ r ∈ w, e1.isDigit r = e2.isDigit r ∧ e1.toLower r = e2.toLower r := fun r hr => h r (by simp [hr])
    simp only [readPatternLoop, h1, h2]
    rw [ih _ _ _ hw, ih _ _ _ hw, ih _ _ _ hw]

instance : DecidablePred PatternRune := fun r => by unfold PatternRune; infer_instance

theorem usual_ascii : UsualRunes Env.ascii := by
  intro r hr
  unfold PatternRune at hr
  constructor
  · simp [Env.ascii]
  · show (if 0x41 ≤ r ∧ r ≤ 0x5A then r + 0x20 else r) = r
    rw [if_neg (by omega)]

theorem usual_agree {env : Env} (he : UsualRunes env) {r : Rune} (hr : PatternRune r ∨ r = 0x7D) :
    env.isDigit r = Env.ascii.isDigit r ∧ env.toLower r = Env.ascii.toLower r := by
  obtain ⟨h1, h2⟩ := he r hr
  obtain ⟨h3, h4⟩ := usual_ascii r hr
  exact ⟨h1.trans h3.symm, h2.trans h4.symm⟩

/-- Each pattern of the table is in the line given for it. -/
def presentOk (body : List (Nat × Nat)) : List (List Nat × List Nat) → List (Nat × List Nat) → Bool
  | [], _ => true
  | _ :: _, [] => false
  | e :: tbl, s :: src =>
    (match body[s.1]? with
      | none => false
      | some c => (cutLines (pieceBytes c) []).any (fun l => decide (l = s.2)) &&
        (fieldsRef isSpace [] (stringRunes s.2)).any (fun w => w.all (fun r => decide (PatternRune r)) &&
          decide ((readPattern Env.ascii w).1 = toInts e.1.reverse))) && presentOk body tbl src

theorem presentOk_sound {k : List Nat → List Nat → Bool} {env : Env} {body : List (Nat × Nat)}
    {dict : Dictionary} (h : Loaded k env body dict) (he : UsualRunes env) :
    ∀ (tbl : List (List Nat × List Nat)) (src : List (Nat × List Nat)), presentOk body tbl src = true →
      ∀ e ∈ tbl, ∃ vals, dict.patterns.get (toInts e.1.reverse) = some vals := by
  intro tbl
  induction tbl with
  | nil => intro src _ e hm; cases hm
  | cons x tbl ih =>
    intro src hs e hm
    cases src with
    | nil => cases hs
    | cons s src =>
      simp only [presentOk, Bool.and_eq_true] at hs
      obtain ⟨hs1, hs2⟩ := hs
      rcases List.mem_cons.mp hm with rfl | hm
      · cases hb : body[s.1]? with
        | none => rw [hb] at hs1; cases hs1
        | some c =>
          rw [hb] at hs1
          simp only [Bool.and_eq_true, List.any_eq_true, decide_eq_true_eq, List.all_eq_true] at hs1
          obtain ⟨⟨l, hl, rfl⟩, w, hw, hr, hk⟩ := hs1
          have hww : w ∈ words (stringRunes s.2) := by
            have e : words (stringRunes s.2) = fieldsRef isSpace [] (stringRunes s.2) := by
              rw [fieldsRef_splitOnP]; rfl
            rw [e]; exact hw
          obtain ⟨vals, hv⟩ := h.present c (List.mem_of_getElem? hb) s.2 hl w hww
          refine ⟨vals, ?_⟩
          rw [← hk, ← hv]
          congr 2
          unfold readPattern
          rw [readPatternLoop_env env Env.ascii w _ _ _ fun r hm => usual_agree he (Or.inl (hr r hm))]
      · exact ih src hs2 e hm

/-! ## Exceptions -/

/-- Under the usual assumption, the entries of exceptions made of the usual characters do not depend on the
Unicode functions. -/
theorem exceptionEntries_usual {env : Env} (he : UsualRunes env) (lines : List (List Rune))
    (h : ∀ l ∈ (lines.dropWhile (fun l => !isMarker l)).drop 1, isComment l = true ∨
      ∀ r ∈ l, r = 0x2D ∨ PatternRune r ∨ r = 0x7D) :
    exceptionEntries env lines = exceptionEntries Env.ascii lines := by
  unfold exceptionEntries
  apply List.map_congr_left
  intro l hl
  unfold exceptionEntry
  rcases h l hl with hc | hr
  · rw [if_pos hc, if_pos hc]
  · split
    · rfl
    · congr 1
      apply List.map_congr_left
      intro r hm
      rw [List.mem_filter] at hm
      rcases hr r hm.1 with h1 | h1
      · simp [h1] at hm
      · exact (usual_agree he h1).2

/-- A word that the dictionary has as an exception made of the given parts. -/
theorem exception_word (env : Env) (dict : Dictionary) (o : HOptions) (parts : List (List Rune))
    (hne : parts ≠ [])
    (hparts : ∀ p ∈ parts, p ≠ [] ∧ ∀ r ∈ p, isHyphenRune r = false)
    (hget : dict.exceptions.get parts.flatten =
      some (gapMarks isHyphenRune (fun _ => 1) (List.intercalate [0x2D] parts)))
    (hlen : o.minLength ≤ parts.flatten.length) (hr0 : 0 ≤ o.minRight)
    (hl : ∀ p ∈ parts.dropLast, o.minLeft ≤ (p.length : Int))
    (hr : ∀ p, parts.getLast? = some p → o.minRight ≤ (p.length : Int)) :
    hyphenatorBreakWord env dict o parts.flatten = .ok parts := by
  rcases breakWord_cases env dict o parts.flatten with ⟨hc, _⟩ | ⟨_, ps, h1, h2⟩
  · exfalso
    rcases hc with hc | hc
    · obtain ⟨r, h1, h2⟩ := (containsHyphen_iff _).mp hc
      obtain ⟨p, h3, h4⟩ := List.mem_flatten.mp h1
      rw [(hparts p h3).2 r h4] at h2; cases h2
    · omega
  · rw [hget] at h2
    rcases h2 with h2 | ⟨h2, _⟩
    · cases h2
      rw [h1, splitAtPositions_cuts o hr0]
      congr 1
      exact exception_cuts o parts.flatten.length parts 0 0 false parts.flatten hne hparts hl hr
        (by simp) (Nat.zero_le _) rfl rfl
    · cases h2

end Verif.Proofs
