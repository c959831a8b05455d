import Verif.Model.AnsiSteps
import Verif.Proofs.AnsiRun

/-! # Work of package `ansi` -/

namespace Verif.Proofs.Ansi
open Verif.Go Verif.Model Verif.Model.Ansi Verif.Spec.Ansi
open Verif.Model.LB (Counted)

/-! ## The results are the same -/

theorem andThen_res {α β : Type} (x : Counted α) (f : α → Counted β) :
    (x.andThen f).res = x.res >>= fun a => (f a).res := by
  unfold Counted.andThen
  cases h : x.res <;> rfl

theorem digitsLoopC_res (env : Env) (mem : List Rune) (first : Bool) : ∀ (n : Nat) (s : Scan),
    (digitsLoopC env mem first n s).res = digitsLoop env mem first n s
  | 0, _ => rfl
  | n + 1, s => by
    rw [digitsLoopC, digitsLoop, andThen_res]
    unfold readRuneC
    simp only []
    congr 1
    funext x
    obtain ⟨o, rdr⟩ := x
    cases o with
    | none => rfl
    | some p =>
      simp only []
      split
      · rfl
      · exact digitsLoopC_res env mem first n _

theorem paramsLoopC_res (env : Env) (mem : List Rune) : ∀ (n : Nat) (s : Scan),
    (paramsLoopC env mem n s).res = paramsLoop env mem n s
  | 0, _ => rfl
  | n + 1, s => by
    rw [paramsLoopC, paramsLoop]
    split
    · rw [andThen_res, digitsLoopC_res]
      congr 1
      funext s
      exact paramsLoopC_res env mem n s
    · rfl

theorem decodeParamsC_res (env : Env) (mem : List Rune) (current nextStart : Int) (rdr : SliceReader) (r : Rune) :
    (decodeParamsC env mem current nextStart rdr r).res = decodeParams env mem current nextStart rdr r := by
  unfold decodeParamsC decodeParams
  rw [andThen_res, digitsLoopC_res]
  congr 1
  funext s
  rw [andThen_res, paramsLoopC_res]
  rfl

theorem decodeC_res (env : Env) (mem : List Rune) (rdr : SliceReader) :
    (decodeANSISequenceC env mem rdr).res = decodeANSISequence env mem rdr := by
  unfold decodeANSISequenceC decodeANSISequence decodeIntroducerC decodeIntroducer
  simp only []
  rw [andThen_res]
  unfold readRuneC
  simp only []
  congr 1
  funext x
  obtain ⟨o, rdr⟩ := x
  cases o with
  | none => rfl
  | some p =>
    simp only []
    split
    · rfl
    · rw [andThen_res]
      simp only []
      congr 1
      funext x
      obtain ⟨o, rdr⟩ := x
      cases o with
      | none => rfl
      | some p =>
        simp only []
        split
        · rfl
        · exact decodeParamsC_res env mem _ _ _ _

theorem textLoopC_res (mem : List Rune) : ∀ (n : Nat) (rdr : SliceReader) (c : Int),
    (textLoopC mem n rdr c).res = textLoop mem n rdr c
  | 0, _, _ => rfl
  | n + 1, rdr, c => by
    rw [textLoopC, textLoop, andThen_res]
    unfold readRuneC
    simp only []
    congr 1
    funext x
    obtain ⟨o, rdr⟩ := x
    cases o with
    | none => rfl
    | some p =>
      simp only []
      split
      · rw [andThen_res]
        simp only []
        congr 1
        funext x
        obtain ⟨o, rdr⟩ := x
        cases o with
        | none => rfl
        | some p =>
          simp only []
          split
          · rfl
          · exact textLoopC_res mem n _ _
      · exact textLoopC_res mem n _ _

theorem decodeTextC_res (mem : List Rune) (rdr : SliceReader) : (decodeTextC mem rdr).res = decodeText mem rdr := by
  unfold decodeTextC decodeText decodeTextFromC decodeTextFrom
  simp only []
  rw [andThen_res, textLoopC_res]
  rfl

theorem startLoopC_res (env : Env) (mem : List Rune) : ∀ (n : Nat) (rdr : SliceReader) (g0 : Option View),
    (startLoopC env mem n rdr g0).res = Ansi.startLoop env mem n rdr g0
  | 0, _, _ => rfl
  | n + 1, rdr, g0 => by
    rw [startLoopC, Ansi.startLoop, andThen_res, decodeC_res]
    congr 1
    funext x
    obtain ⟨o, k, rdr⟩ := x
    cases o with
    | none => rfl
    | some seq =>
      simp only []
      split
      · rfl
      · split
        · exact startLoopC_res env mem n _ _
        · split <;> rfl

theorem endLoopC_res (env : Env) (g0 : Option View) : ∀ (n : Nat) (mem : List Rune) (rdr : SliceReader)
    (g1 : Option Sl) (g2 : Option View), (endLoopC env g0 n mem rdr g1 g2).res = endLoop env g0 n mem rdr g1 g2
  | 0, _, _, _, _ => rfl
  | n + 1, mem, rdr, g1, g2 => by
    rw [endLoopC, endLoop, andThen_res, decodeC_res]
    congr 1
    funext x
    obtain ⟨o, k, rdr⟩ := x
    cases o with
    | none => rfl
    | some seq =>
      simp only []
      split
      · cases g1 with
        | none => exact endLoopC_res env g0 n _ _ _ _
        | some s => exact endLoopC_res env g0 n _ _ _ _
      · split
        · rfl
        · split
          · exact endLoopC_res env g0 n _ _ _ _
          · split <;> rfl

theorem stripC_res (env : Env) (mem : List Rune) (v : View) :
    (stripANSIFromRunesC env mem v).res = stripANSIFromRunes env mem v := by
  unfold stripANSIFromRunesC stripANSIFromRunes
  rw [andThen_res, startLoopC_res]
  simp only []
  congr 1
  funext x
  cases x with
  | inl tok => rfl
  | inr p =>
    obtain ⟨reader, g0⟩ := p
    simp only []
    rw [andThen_res, decodeTextC_res]
    congr 1
    funext y
    exact endLoopC_res env g0 _ _ _ _ _

theorem stripTokenLoopC_res (env : Env) : ∀ (n : Nat) (mem : List Rune) (v : View),
    (stripTokenLoopC env n mem v).res = stripTokenLoop env n mem v
  | 0, _, _ => rfl
  | n + 1, mem, v => by
    rw [stripTokenLoopC, stripTokenLoop, andThen_res, stripC_res]
    congr 1
    funext x
    obtain ⟨tok, mem⟩ := x
    simp only []
    split
    · rfl
    · rw [andThen_res, stripTokenLoopC_res env n]
      rfl

theorem stripTokenC_res (env : Env) (mem : List Rune) (v : View) :
    (stripTokenC env mem v).res = stripToken env mem v := stripTokenLoopC_res env _ mem v

/-! ## The counts, as functions on lists -/

theorem andThen_ok {α β : Type} {x : Counted α} {a : α} (h : x.res = .ok a) (f : α → Counted β) :
    (x.andThen f).steps = x.steps + (f a).steps := by
  unfold Counted.andThen; rw [h]

theorem andThen_error {α β : Type} {x : Counted α} {e : Panic} (h : x.res = .error e) (f : α → Counted β) :
    (x.andThen f).steps = x.steps := by
  unfold Counted.andThen; rw [h]

theorem of_steps {α : Type} (r : Res α) : (Counted.of r).steps = 0 := rfl

theorem readC_some {mem : List Rune} {v : View} (hv : v.Valid mem) {p : Nat} {r : Rune} {rest : List Rune}
    (h : (v.elems mem).drop p = r :: rest) {β : Type} (f : Option (Rune × Int) × SliceReader → Counted β) :
    ((readRuneC mem ⟨p, v⟩).andThen f).steps =
      1 + (f (some (r, runeLen r), ⟨((p + 1 : Nat) : Int), v⟩)).steps :=
  andThen_ok (x := readRuneC mem ⟨p, v⟩) (readRune_some hv h).1 f

theorem readC_none {mem : List Rune} {v : View} (hv : v.Valid mem) {p : Nat} (hp : p ≤ v.len)
    (h : (v.elems mem).drop p = []) {β : Type} (f : Option (Rune × Int) × SliceReader → Counted β) :
    ((readRuneC mem ⟨p, v⟩).andThen f).steps = 1 + (f (none, ⟨p, v⟩)).steps :=
  andThen_ok (x := readRuneC mem ⟨p, v⟩) (readRune_none hv hp h).1 f

/-- The reads of the scan of what follows `ESC [`. -/
def scanReads (env : Env) : Nat → List Rune → Nat
  | _, [] => 1
  | k, r :: rest =>
    if env.isDigit r then (if k ≥ 2 then 1 else 1 + scanReads env (k + 1) rest)
    else if r == 0x3B || r == 0x3A then 1 + scanReads env 0 rest
    else 1

/-- The reads of the scan of a sequence. -/
def seqReads (env : Env) : List Rune → Nat
  | [] => 1
  | [a] => if a = esc then 2 else 1
  | a :: b :: rest => if a = esc then (if b = openingBracket then 2 + scanReads env 0 rest else 2) else 1

/-- The reads of the scan of a text. -/
def textReads : List Rune → Nat
  | [] => 1
  | [_] => 2
  | a :: b :: rest =>
    if a = esc then (if b = openingBracket then 2 else 2 + textReads rest) else 1 + textReads (b :: rest)

/-- The reads and copies of the loop on trailing sequences. -/
def trailWork (env : Env) : Nat → List Rune → Nat
  | 0, _ => 0
  | fuel + 1, l => seqReads env l + match decodeSeq env l with
    | none => 0
    | some (_, .start) => 0
    | some (n, .stop) => seqReads env (l.drop n)
    | some (n, .other) => n + trailWork env fuel (l.drop n)

theorem loops_steps (env : Env) (hd : AsciiDigits env) (mem : List Rune) (v : View) (hv : v.Valid mem) :
    ∀ (rest : List Rune) (k : Nat) (first : Bool) (fuel p : Nat) (s : Scan) {β : Type} (f : Scan → Res β),
    k ≤ 2 → p ≤ v.len → (v.elems mem).drop p = rest → rest.length + 1 ≤ fuel → s.rdr = ⟨p, v⟩ →
    ((digitsLoopC env mem first (3 - k) s).andThen fun s =>
      (paramsLoopC env mem fuel s).andThen fun s => .of (f s)).steps = scanReads env k rest := by
  have hand : ∀ {α β γ : Type} (x : Counted α) (g : α → Counted β) (h : β → Counted γ),
      ((x.andThen g).andThen h).steps = (x.andThen fun a => (g a).andThen h).steps := by
    intro α β γ x g h
    unfold Counted.andThen
    cases e : x.res with
    | error e => rfl
    | ok a =>
      simp only []
      cases e2 : (g a).res with
      | error e => rfl
      | ok b => simp only []; omega
  have hfin : ∀ {β : Type} (x : Scan) (fuel : Nat) (f : Scan → Res β), (x.r == 0x3B || x.r == 0x3A) = false →
      ((paramsLoopC env mem (fuel + 1) x).andThen fun s => .of (f s)).steps = 0 := by
    intro β x fuel f hx
    rw [paramsLoopC, hx]
    rfl
  intro rest
  induction rest with
  | nil =>
    intro k first fuel p s β f hk hp hrest hfuel h1
    obtain ⟨n, hn⟩ : ∃ n, 3 - k = n + 1 := ⟨2 - k, by omega⟩
    obtain ⟨g, hg⟩ : ∃ g, fuel = g + 1 := ⟨fuel - 1, by simp at hfuel; omega⟩
    rw [hn, hg, digitsLoopC, h1, hand, readC_none hv hp hrest]
    simp only []
    rw [andThen_ok (x := Counted.of _) rfl, of_steps, hfin _ _ _ (by exact runeError_not_sep)]
    rfl
  | cons r rest ih =>
    intro k first fuel p s β f hk hp hrest hfuel h1
    obtain ⟨_, hrest', hlt⟩ := readRune_some hv hrest
    obtain ⟨n, hn⟩ : ∃ n, 3 - k = n + 1 := ⟨2 - k, by omega⟩
    obtain ⟨g, hg⟩ : ∃ g, fuel = g + 1 := ⟨fuel - 1, by simp at hfuel; omega⟩
    rw [hn, digitsLoopC, h1, hand, readC_some hv hrest]
    simp only []
    cases hdig : env.isDigit r with
    | true =>
      have hns := not_sep_of_digit hd hdig
      rw [if_neg (by simp)]
      by_cases hk2 : k ≥ 2
      · have hn0 : n = 0 := by omega
        subst hn0
        rw [digitsLoopC, andThen_ok (x := Counted.of _) rfl, of_steps, hg, hfin _ _ _ (by exact hns)]
        simp only [scanReads, hdig, if_true]
        rw [if_pos hk2]
      · have := ih (k + 1) first fuel (p + 1) { s with
            rdr := ⟨((p + 1 : Nat) : Int), v⟩, r := r, eof := false,
            hasZeroArg := if first && r != 0x30 then false else s.hasZeroArg,
            runeCount := s.runeCount + 1, nextStart := s.nextStart + 1 } f
          (by omega) (by omega) hrest' (by simp at hfuel ⊢; omega) rfl
        rw [show 3 - (k + 1) = n by omega] at this
        simp only [scanReads, hdig, if_true]
        rw [if_neg hk2, this]
    | false =>
      rw [if_pos (by simp), andThen_ok (x := Counted.of _) rfl, of_steps]
      cases hsep : (r == 0x3B || r == 0x3A) with
      | true =>
        rw [hg, paramsLoopC, if_pos (by exact hsep)]
        rw [hand]
        have := ih 0 false g (p + 1)
          { s with rdr := ⟨((p + 1 : Nat) : Int), v⟩, r := r, eof := false,
                   runeCount := s.runeCount + 1, nextStart := s.nextStart + 1 } f
          (by omega) (by omega) hrest' (by simp at hfuel; omega) rfl
        rw [show 3 - 0 = maxDigits from rfl] at this
        simp only [scanReads, hdig, hsep, if_true, Bool.false_eq_true, if_false]
        rw [← this]
        simp only [Nat.zero_add]
      | false =>
        rw [hg, hfin _ _ _ (by exact hsep)]
        simp [scanReads, hdig, hsep]

/-- The reads of decodeANSISequence. -/
theorem decodeC_steps (env : Env) (hd : AsciiDigits env) (mem : List Rune) (v : View) (hv : v.Valid mem)
    (hlen : (v.len : Int) < 2 ^ 63) (p : Nat) (hp : p ≤ v.len) :
    (decodeANSISequenceC env mem ⟨p, v⟩).steps = seqReads env ((v.elems mem).drop p) := by
  rw [decodeANSISequenceC, seek_here v p hp hlen]
  rw [show (some (p : Int), (⟨p, v⟩ : SliceReader)).1.getD (-1) = p from rfl]
  rw [decodeIntroducerC]
  generalize hl : (v.elems mem).drop p = l
  match l, hl with
  | [], hl => exact readC_none hv hp hl _
  | [a], hl =>
    obtain ⟨h1, h2, h3⟩ := readRune_some hv hl
    rw [readC_some hv hl]
    simp only [seqReads]
    by_cases ha : a = esc
    · rw [if_neg (by simpa using ha), if_pos ha, readC_none hv (by omega) h2]
      rfl
    · rw [if_pos (by simpa using ha), if_neg ha]
      rfl
  | a :: b :: rest, hl =>
    obtain ⟨h1, h2, h3⟩ := readRune_some hv hl
    rw [readC_some hv hl]
    simp only [seqReads]
    by_cases ha : a = esc
    · rw [if_neg (by simpa using ha), if_pos ha, readC_some hv h2]
      obtain ⟨h4, h5, h6⟩ := readRune_some hv h2
      simp only []
      by_cases hb : b = openingBracket
      · rw [if_neg (by simpa using hb), if_pos hb]
        rw [seek_here v (p + 1 + 1) (by omega) hlen]
        have hr : rest.length = v.len - (p + 2) := by
          have := congrArg List.length h5
          have hel := View.elems_length hv
          simp only [List.length_drop] at this
          omega
        have := loops_steps env hd mem v hv rest 0 true (v.len + 1) (p + 1 + 1)
          ⟨⟨((p + 1 + 1 : Nat) : Int), v⟩, b, false, true, 2, ((p + 1 + 1 : Nat) : Int)⟩
          (finishParams mem p) (by omega) (by omega) h5 (by omega) rfl
        have e : (decodeParamsC env mem p ((p + 1 + 1 : Nat) : Int) ⟨((p + 1 + 1 : Nat) : Int), v⟩ b).steps =
            scanReads env 0 rest := this
        simp only [Option.getD_some]
        omega
      · rw [if_pos (by simpa using hb), if_neg hb]
        rfl
    · rw [if_pos (by simpa using ha), if_neg ha]
      rfl

theorem textLoopC_steps (mem : List Rune) (v : View) (hv : v.Valid mem) :
    ∀ (fuel p : Nat) (c : Int), p ≤ v.len → v.len - p + 1 ≤ fuel →
    (textLoopC mem fuel ⟨p, v⟩ c).steps = textReads ((v.elems mem).drop p) := by
  intro fuel
  induction fuel with
  | zero => intro p c _ h; omega
  | succ fuel ih =>
    intro p c hp hf
    rw [textLoopC]
    generalize hl : (v.elems mem).drop p = l
    match l, hl with
    | [], hl => exact readC_none hv hp hl _
    | [a], hl =>
      obtain ⟨h1, h2, h3⟩ := readRune_some hv hl
      rw [readC_some hv hl]
      simp only [textReads]
      by_cases ha : a = esc
      · rw [if_pos (by simpa using ha), readC_none hv (by omega) h2]
        rfl
      · rw [if_neg (by simpa using ha), ih (p + 1) _ (by omega) (by omega), h2]
        rfl
    | a :: b :: rest, hl =>
      obtain ⟨h1, h2, h3⟩ := readRune_some hv hl
      rw [readC_some hv hl]
      simp only [textReads]
      by_cases ha : a = esc
      · obtain ⟨h4, h5, h6⟩ := readRune_some hv h2
        rw [if_pos (by simpa using ha), if_pos ha, readC_some hv h2]
        simp only []
        by_cases hb : b = openingBracket
        · rw [if_pos (by simpa using hb), if_pos hb]
          rfl
        · rw [if_neg (by simpa using hb), if_neg hb, ih (p + 1 + 1) _ (by omega) (by omega), h5]
          omega
      · rw [if_neg (by simpa using ha), if_neg ha, ih (p + 1) _ (by omega) (by omega), h2]

theorem decodeTextC_steps (mem : List Rune) (v : View) (hv : v.Valid mem) (hlen : (v.len : Int) < 2 ^ 63)
    (p : Nat) (hp : p ≤ v.len) :
    (decodeTextC mem ⟨p, v⟩).steps = textReads ((v.elems mem).drop p) := by
  rw [decodeTextC, seek_here v p hp hlen, decodeTextFromC]
  have h1 := textLoopC_res mem (v.len + 1) ⟨p, v⟩ 0
  rw [textLoop_spec mem v hv hlen _ p 0 hp (by omega)] at h1
  rw [andThen_ok h1, of_steps, textLoopC_steps mem v hv _ p 0 hp (by omega)]
  rfl

/-! ### The trailing sequences -/

section steps
variable {env : Env} {g0 : Option View} {fuel : Nat} {mem : List Rune} {rdr rdr' : SliceReader}
  {g1 : Option Sl} {g2 : Option View} {seq : View} {k : Kind}

theorem endLoopC_error {e : Panic} (h : decodeANSISequence env mem rdr = .error e) :
    (endLoopC env g0 (fuel + 1) mem rdr g1 g2).steps = (decodeANSISequenceC env mem rdr).steps := by
  rw [endLoopC, andThen_error (e := e) (by rw [decodeC_res, h])]

theorem endLoopC_none (h : decodeANSISequence env mem rdr = .ok (none, k, rdr')) :
    (endLoopC env g0 (fuel + 1) mem rdr g1 g2).steps = (decodeANSISequenceC env mem rdr).steps := by
  rw [endLoopC, andThen_ok (a := (none, k, rdr')) (by rw [decodeC_res, h])]
  rfl

theorem endLoopC_other {s : Sl} (h : decodeANSISequence env mem rdr = .ok (some seq, .other, rdr'))
    (h2 : optLen g2 = 0) :
    (endLoopC env g0 (fuel + 1) mem rdr (some s) g2).steps = (decodeANSISequenceC env mem rdr).steps +
      (appendCost mem s seq +
        (endLoopC env g0 fuel (appendSl mem s seq).2 rdr' (some (appendSl mem s seq).1) g2).steps) := by
  rw [endLoopC, andThen_ok (a := (some seq, .other, rdr')) (by rw [decodeC_res, h])]
  simp only []
  rw [if_pos ⟨trivial, h2⟩]

theorem endLoopC_stop (h : decodeANSISequence env mem rdr = .ok (some seq, .stop, rdr')) (h2 : optLen g2 = 0) :
    (endLoopC env g0 (fuel + 1) mem rdr g1 g2).steps = (decodeANSISequenceC env mem rdr).steps +
      (endLoopC env g0 fuel mem rdr' g1 (some seq)).steps := by
  rw [endLoopC, andThen_ok (a := (some seq, .stop, rdr')) (by rw [decodeC_res, h])]
  simp only []
  rw [if_neg (by simp), if_neg (by simp), if_pos ⟨trivial, h2⟩]

theorem endLoopC_back (h : decodeANSISequence env mem rdr = .ok (some seq, k, rdr'))
    (h2 : k = .start ∨ optLen g2 > 0) :
    (endLoopC env g0 (fuel + 1) mem rdr g1 g2).steps = (decodeANSISequenceC env mem rdr).steps := by
  rw [endLoopC, andThen_ok (a := (some seq, k, rdr')) (by rw [decodeC_res, h])]
  simp only []
  cases k with
  | other =>
    have h4 : optLen g2 > 0 := by simpa using h2
    rw [if_neg (by simp; omega), if_pos ⟨rfl, h4⟩]; rfl
  | start =>
    rw [if_neg (by simp), if_neg (by simp), if_neg (by simp), if_pos rfl]; rfl
  | stop =>
    have h4 : optLen g2 > 0 := by simpa using h2
    rw [if_neg (by simp), if_neg (by simp), if_neg (by simp; omega), if_neg (by simp)]; rfl

end steps

theorem endLoopC_steps (env : Env) (hd : AsciiDigits env) (mem : List Rune) (v : View) (hv : v.Valid mem)
    (hlen : (v.len : Int) < 2 ^ 63) (g0 : Option View) :
    ∀ (fuel q a : Nat), a ≤ q → q ≤ v.len → v.len - q + 2 ≤ fuel →
    (endLoopC env g0 fuel mem ⟨q, v⟩ (some (.view ⟨v.off + a, q - a⟩)) none).steps ≤
      trailWork env fuel ((v.elems mem).drop q) := by
  have hl := View.elems_length hv
  have hv' := hv
  unfold View.Valid at hv'
  intro fuel
  induction fuel with
  | zero => intro q a _ _ h; omega
  | succ fuel ih =>
    intro q a haq hq hf
    have hlq : ((v.elems mem).drop q).length = v.len - q := by rw [List.length_drop, hl]
    have hdec := decode_spec env hd mem v hv hlen q hq
    have hst := decodeC_steps env hd mem v hv hlen q hq
    rw [trailWork]
    cases hsc : decodeSeq env ((v.elems mem).drop q) with
    | none =>
      rw [hsc] at hdec
      rw [endLoopC_none hdec, hst]
      exact Nat.le_refl _
    | some nk =>
      obtain ⟨n, k⟩ := nk
      have hb := decodeSeq_bounds hsc
      rw [hsc] at hdec
      simp only at hdec
      by_cases hfit : v.off + q + n ≤ mem.length
      · rw [if_pos hfit] at hdec
        cases k with
        | other =>
          have hap := append_in_place mem (v.off + a) (v.off + q) n (by omega) hfit
          have e : v.off + q - (v.off + a) = q - a := by omega
          rw [e] at hap
          have hc : appendCost mem (.view ⟨v.off + a, q - a⟩) ⟨v.off + q, n⟩ = n := by
            simp only [appendCost]
            rw [if_pos (by omega)]
          rw [endLoopC_other hdec rfl, hst, hap, hc]
          simp only []
          by_cases hin : n ≤ v.len - q
          · have hmin : min (q + n) v.len = q + n := by omega
            rw [hmin]
            have := ih (q + n) a (by omega) (by omega) (by omega)
            rw [show q + n - a = q - a + n by omega] at this
            rw [List.drop_drop]
            omega
          · have hmin : min (q + n) v.len = v.len := by omega
            rw [hmin]
            obtain ⟨f, hfu⟩ : ∃ f, fuel = f + 1 := ⟨fuel - 1, by omega⟩
            have hdec2 := decode_spec env hd mem v hv hlen v.len (Nat.le_refl _)
            have hst2 := decodeC_steps env hd mem v hv hlen v.len (Nat.le_refl _)
            have e1 : (v.elems mem).drop v.len = [] := List.drop_eq_nil_of_le (by omega)
            rw [e1, decodeSeq_nil] at hdec2
            rw [e1] at hst2
            have e2 : ((v.elems mem).drop q).drop n = [] := List.drop_eq_nil_of_le (by omega)
            rw [hfu, endLoopC_none hdec2, hst2, e2, trailWork]
            omega
        | start =>
          rw [endLoopC_back hdec (Or.inl rfl), hst]
          exact Nat.le_refl _
        | stop =>
          have hin : n ≤ v.len - q := by
            apply Classical.byContradiction
            intro hc
            have := (decodeSeq_overrun hd hsc (by omega)).2.1
            cases this
          obtain ⟨f, hfu⟩ : ∃ f, fuel = f + 1 := ⟨fuel - 1, by omega⟩
          have hmin : min (q + n) v.len = q + n := by omega
          rw [hmin] at hdec
          have hc : q + n ≤ v.len := by omega
          have hdec2 := decode_spec env hd mem v hv hlen (q + n) hc
          have hst2 := decodeC_steps env hd mem v hv hlen (q + n) hc
          rw [endLoopC_stop hdec rfl, hst]
          simp only []
          rw [List.drop_drop, ← hst2]
          apply Nat.add_le_add_left
          rw [hfu]
          cases hsc2 : decodeSeq env ((v.elems mem).drop (q + n)) with
          | none =>
            rw [hsc2] at hdec2
            rw [endLoopC_none hdec2]
          | some mk =>
            obtain ⟨m, k2⟩ := mk
            rw [hsc2] at hdec2
            simp only at hdec2
            by_cases hfit2 : v.off + (q + n) + m ≤ mem.length
            · rw [if_pos hfit2] at hdec2
              rw [endLoopC_back hdec2 (Or.inr (by simp only [optLen]; omega))]
            · rw [if_neg hfit2] at hdec2
              rw [endLoopC_error hdec2]
      · rw [if_neg hfit] at hdec
        rw [endLoopC_error hdec, hst]
        exact Nat.le_add_right _ _

/-! ### One round -/

/-- The work after the starting sequence, if there is one. -/
def bodyWork (env : Env) (fuel : Nat) (l : List Rune) : Nat :=
  seqReads env l + match decodeSeq env l with
    | none => textReads l + trailWork env fuel (l.drop (textLen l))
    | some _ => 0

/-- The work of StripANSIFromRunes. -/
def roundWork (env : Env) (fuel : Nat) (l : List Rune) : Nat :=
  match decodeSeq env l with
  | some (a, .start) => seqReads env l + bodyWork env fuel (l.drop a)
  | _ => bodyWork env fuel l

/-- What is left to do after the loop on starting sequences. -/
def afterStart (env : Env) (mem : List Rune) (v : View) :
    StrippedToken ⊕ (SliceReader × Option View) → Counted (StrippedToken × List Rune)
  | .inl tok => .of (.ok (tok, mem))
  | .inr (reader, g0) =>
    (decodeTextC mem reader).andThen fun y => endLoopC env g0 (v.len + 2) mem y.2 (some (.view y.1)) none

theorem bodyC_steps (env : Env) (hd : AsciiDigits env) (mem : List Rune) (v : View) (hv : v.Valid mem)
    (hlen : (v.len : Int) < 2 ^ 63) (fuel a : Nat) (ha : a ≤ v.len)
    (hfirst : a = 0 → ∀ n, decodeSeq env ((v.elems mem).drop a) ≠ some (n, .start)) :
    ((startLoopC env mem (fuel + 1) ⟨a, v⟩ (optView v.off a)).andThen (afterStart env mem v)).steps ≤
      bodyWork env (v.len + 2) ((v.elems mem).drop a) := by
  have hl := View.elems_length hv
  have hdec := decode_spec env hd mem v hv hlen a ha
  have hst := decodeC_steps env hd mem v hv hlen a ha
  rw [bodyWork, startLoopC]
  cases hsc : decodeSeq env ((v.elems mem).drop a) with
  | none =>
    rw [hsc] at hdec
    have h1 := decodeC_res env mem ⟨a, v⟩
    rw [hdec] at h1
    have h2 : (startLoopC env mem (fuel + 1) ⟨a, v⟩ (optView v.off a)).res = .ok (.inr (⟨a, v⟩, optView v.off a)) := by
      rw [startLoopC_res]
      exact startLoop_none hdec
    rw [startLoopC] at h2
    rw [andThen_ok h2, andThen_ok h1]
    simp only [of_steps, afterStart]
    have h3 := decodeTextC_res mem ⟨a, v⟩
    rw [decodeText_spec mem v hv hlen a ha] at h3
    rw [andThen_ok h3, hst, decodeTextC_steps mem v hv hlen a ha]
    have ht := textLen_le ((v.elems mem).drop a)
    rw [List.length_drop] at ht
    have := endLoopC_steps env hd mem v hv hlen (optView v.off a) (v.len + 2)
      (a + textLen ((v.elems mem).drop a)) a (by omega) (by omega) (by omega)
    rw [show a + textLen ((v.elems mem).drop a) - a = textLen ((v.elems mem).drop a) by omega] at this
    rw [List.drop_drop]
    simp only []
    omega
  | some nk =>
    obtain ⟨n, k⟩ := nk
    rw [hsc] at hdec
    simp only at hdec ⊢
    have h1 := decodeC_res env mem ⟨a, v⟩
    rw [Nat.add_zero, ← hst]
    by_cases hfit : v.off + a + n ≤ mem.length
    · rw [if_pos hfit] at hdec
      rw [hdec] at h1
      have hk : ¬ (k = .start ∧ optLen (optView v.off a) = 0) := by
        intro ⟨hk, h0⟩
        subst hk
        by_cases ha0 : a = 0
        · exact hfirst ha0 n hsc
        · rw [optView_pos ha0] at h0
          exact ha0 h0
      have hgen : ∀ (x : Counted (StrippedToken ⊕ (SliceReader × Option View))), x.steps = 0 →
          (∀ y, x.res = .ok y → ∃ tok, y = .inl tok) → (x.andThen (afterStart env mem v)).steps = 0 := by
        intro x h0 h
        cases e : x.res with
        | error e' => rw [andThen_error e, h0]
        | ok y =>
          obtain ⟨tok, rfl⟩ := h y e
          rw [andThen_ok e, h0]
          rfl
      have hassoc : ∀ {α β γ : Type} (x : Counted α) (g : α → Counted β) (h : β → Counted γ),
          ((x.andThen g).andThen h).steps = (x.andThen fun a => (g a).andThen h).steps := by
        intro α β γ x g h
        unfold Counted.andThen
        cases e : x.res with
        | error e => rfl
        | ok a =>
          simp only []
          cases e2 : (g a).res with
          | error e => rfl
          | ok b => simp only []; omega
      rw [hassoc, andThen_ok h1]
      apply Nat.le_of_eq
      rw [Nat.add_eq_left]
      apply hgen
      · simp only []
        rw [if_neg hk]
        repeat' split
        all_goals rfl
      · simp only []
        rw [if_neg hk]
        intro y hy
        have hdo : ∀ (r : Res View) (f : View → StrippedToken),
            (do return (Sum.inl (f (← r)) : StrippedToken ⊕ (SliceReader × Option View))) = Except.ok y →
            ∃ tok, y = Sum.inl tok := by
          intro r f h
          cases r with
          | error e => cases h
          | ok a => exact ⟨_, (Except.ok.inj h).symm⟩
        split at hy
        · exact hdo _ _ hy
        · split at hy
          · exact hdo _ _ hy
          · exact hdo _ _ hy
    · rw [if_neg hfit] at hdec
      rw [hdec] at h1
      have h2 : (startLoopC env mem (fuel + 1) ⟨a, v⟩ (optView v.off a)).res = .error .slice := by
        rw [startLoopC_res]
        exact startLoop_error hdec
      rw [startLoopC] at h2
      rw [andThen_error h2, andThen_error h1]

theorem stripC_steps (env : Env) (hd : AsciiDigits env) (mem : List Rune) (v : View) (hv : v.Valid mem)
    (hlen : (v.len : Int) < 2 ^ 63) :
    (stripANSIFromRunesC env mem v).steps ≤ roundWork env (v.len + 2) (v.elems mem) := by
  have hl := View.elems_length hv
  have e : stripANSIFromRunesC env mem v =
      (startLoopC env mem 3 ⟨(0 : Nat), v⟩ (optView v.off 0)).andThen (afterStart env mem v) := rfl
  rw [e, roundWork]
  by_cases hstart : ∃ n, decodeSeq env (v.elems mem) = some (n, .start)
  · obtain ⟨a, hsc⟩ := hstart
    rw [hsc]
    simp only []
    have hin : a ≤ v.len := by
      apply Classical.byContradiction
      intro hc
      have := (decodeSeq_overrun hd hsc (by omega)).2.1
      cases this
    have hb := decodeSeq_bounds hsc
    have hdec := decode_spec env hd mem v hv hlen 0 (by omega)
    have hst := decodeC_steps env hd mem v hv hlen 0 (by omega)
    rw [List.drop_zero] at hdec hst
    rw [hsc] at hdec
    have hv' := hv
    unfold View.Valid at hv'
    simp only at hdec
    rw [if_pos (by omega), show min (0 + a) v.len = a by omega] at hdec
    have h1 := decodeC_res env mem ⟨(0 : Nat), v⟩
    rw [hdec] at h1
    have hb2 := bodyC_steps env hd mem v hv hlen 1 a hin (fun h => by omega)
    have h3 : (startLoopC env mem 3 ⟨(0 : Nat), v⟩ (optView v.off 0)) =
        ⟨seqReads env (v.elems mem) + (startLoopC env mem 2 ⟨a, v⟩ (optView v.off a)).steps,
          (startLoopC env mem 2 ⟨a, v⟩ (optView v.off a)).res⟩ := by
      rw [startLoopC]
      unfold Counted.andThen
      rw [h1, hst]
      simp only []
      rw [if_neg (by simp), if_pos ⟨trivial, rfl⟩, optView_pos (by omega)]
      rfl
    rw [h3]
    have h4 : ∀ (n : Nat) (x : Counted (StrippedToken ⊕ (SliceReader × Option View))),
        ((⟨n + x.steps, x.res⟩ : Counted _).andThen (afterStart env mem v)).steps =
          n + (x.andThen (afterStart env mem v)).steps := by
      intro n x
      unfold Counted.andThen
      cases x.res <;> simp only [] <;> omega
    rw [h4]
    exact Nat.add_le_add_left hb2 _
  · have h1 := bodyC_steps env hd mem v hv hlen 2 0 (by omega) (fun _ n h => hstart ⟨n, by simpa using h⟩)
    rw [List.drop_zero] at h1
    refine Nat.le_trans h1 ?_
    split
    · rename_i a h
      exact absurd ⟨a, h⟩ hstart
    · exact Nat.le_refl _

end Verif.Proofs.Ansi
