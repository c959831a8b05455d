import Verif.Model.SliceReader
import Verif.Proofs.Utf8
import Verif.Spec.Reader
import Verif.Props.Widths

/-! # Properties C29–C35: strings, writer and reader of runes -/

namespace Verif.Props
open Verif.Go Verif.Model Verif.Spec Verif.Proofs

/-! ## C29 -/

/-- The value returned by StringWidth (or its panic). -/
def stringWidthOf (g : WGlobals) (s : List Nat) (opts : List WOption) : Res Int :=
  (stringWidth g s opts).map Prod.fst

/-- **C29.** The width of the encoding of a text is the width of the text. -/
theorem C29_encoded_text (g : WGlobals) (rs : List Rune) (opts : List WOption)
    (h : ∀ r ∈ rs, IsScalar r) : stringWidthOf g (utf8s rs) opts = widthsOf g rs opts := by
  unfold stringWidthOf stringWidth
  rw [stringRunes_utf8s rs h]; rfl

theorem displayWidth_fffd (ea we : Bool) (aw : Int) : displayWidth ea we aw 0xFFFD = 0 := by
  unfold displayWidth
  rw [if_pos (Or.inr rfl)]

theorem sum_items (f : Rune → Int) (h0 : f runeError = 0) (items : List (Option Rune)) :
    ((items.map (fun o => o.getD runeError)).map f).sum = ((items.filterMap id).map f).sum := by
  induction items with
  | nil => rfl
  | cons o items ih =>
    cases o with
    | none => simp only [List.map_cons, Option.getD_none, List.sum_cons, h0, ih, Int.zero_add]; rfl
    | some r => simp only [List.map_cons, Option.getD_some, List.sum_cons, ih]; rfl

/-- **C29.** Any byte string reads, in one way, as a sequence of runes and of bytes at which no encoded
rune starts; StringWidth does not panic and is the width of these runes, the other bytes counting for
nothing. -/
theorem C29_any_string (g : WGlobals) (h : AfterCalls g) (s : List Nat) (opts : List WOption) :
    ∃ items w, Reads s items ∧ (∀ items', Reads s items' → items' = items) ∧
      stringWidthOf g s opts = .ok w ∧ widthsOf g (items.filterMap id) opts = .ok w := by
  obtain ⟨items, hi⟩ := reads_exists s.length s (Nat.le_refl _)
  have hsc : ∀ r ∈ items.filterMap id, IsScalar r := fun r hr => by
    rw [List.mem_filterMap] at hr
    obtain ⟨o, ho, e⟩ := hr
    exact reads_scalar hi r (by rw [← show o = some r from e]; exact ho)
  have e1 : stringWidthOf g s opts = widthsOf g (items.map (fun o => o.getD runeError)) opts := by
    unfold stringWidthOf stringWidth
    rw [stringRunes_reads hi]; rfl
  cases he : (settings opts).eastAsian with
  | true =>
    refine ⟨items, _, hi, fun j hj => (reads_unique hi hj).symm, ?_, widthsOf_ea h _ opts he⟩
    rw [e1, widthsOf_ea h _ opts he, sum_items (specWidth opts) (displayWidth_fffd _ _ _)]
  | false =>
    have h1 : ∀ r ∈ items.map (fun o => o.getD runeError), 0 ≤ r ∧ r ≤ 0x10FFFF := by
      intro r hr
      rw [List.mem_map] at hr
      obtain ⟨o, ho, e⟩ := hr
      cases o with
      | none => rw [← e]; exact ⟨by decide, by decide⟩
      | some x =>
        have := reads_scalar hi x ho
        rw [← e]; exact ⟨this.1, this.2.1⟩
    refine ⟨items, _, hi, fun j hj => (reads_unique hi hj).symm, ?_,
      widthsOf_table h _ opts he (fun r hr => ⟨(hsc r hr).1, (hsc r hr).2.1⟩)⟩
    rw [e1, widthsOf_table h _ opts he h1, sum_items (fun r => plainWidth r % 4)]
    show displayWidth _ _ _ 0xFFFD % 4 = 0
    rw [displayWidth_fffd]; rfl

/-- "é", a stray continuation byte, "中". -/
example : Reads [0xC3, 0xA9, 0xA9, 0xE4, 0xB8, 0xAD] [some 0xE9, none, some 0x4E2D] := by
  refine Reads.rune 0xE9 (by decide) (Reads.invalid 0xA9 ?_ (Reads.rune 0x4E2D (by decide) .nil))
  rintro ⟨r, t, hr, e⟩
  have := decodeRune_utf8 hr t
  rw [← e] at this
  have h1 := congrArg Prod.fst this
  have h2 := congrArg Prod.snd this
  have : (0xFFFD : Int) = r := h1
  subst this
  revert h2; decide

/-! ## C30, C31 -/

/-- The bytes handed to the underlying writer, one list for each call of Write, by a writer that records
them. -/
def recorder : IOWriter (List (List Nat)) Unit := fun calls bytes =>
  ((bytes.length, none), calls ++ [bytes])

/-- The text, with runes that have no encoding replaced by U+FFFD. -/
def replaced (rs : List Rune) : List Rune := rs.map (fun r => if IsScalar r then r else 0xFFFD)

theorem encode_replaced (rs : List Rune) (h : ∀ r ∈ rs, IsInt32 r) :
    rs.flatMap encodeRune = utf8s (replaced rs) := by
  induction rs with
  | nil => rfl
  | cons r rs ih =>
    show encodeRune r ++ rs.flatMap encodeRune =
      utf8 (if IsScalar r then r else 0xFFFD) ++ utf8s (replaced rs)
    rw [ih (fun x hx => h x (by simp [hx]))]
    congr 1
    split
    · rename_i hr; exact encodeRune_scalar hr
    · rename_i hr; exact encodeRune_other (h r (by simp)) hr

theorem replaced_scalar (rs : List Rune) : ∀ r ∈ replaced rs, IsScalar r := by
  intro r hr
  unfold replaced at hr
  rw [List.mem_map] at hr
  obtain ⟨x, _, e⟩ := hr
  rw [← e]
  split
  · assumption
  · decide

/-- **C30.** WriteRunes hands over, in a single call, the UTF-8 encoding of the text. -/
theorem C30_written_bytes (rs : List Rune) (h : ∀ r ∈ rs, IsInt32 r) :
    (writeRunes recorder [] rs).2 = [utf8s (replaced rs)] := by
  unfold writeRunes
  rw [writeRunesLoop_eq, encode_replaced rs h]; rfl

/-- **C30.** Converting these bytes back gives the text. -/
theorem C30_read_back (rs : List Rune) (h : ∀ r ∈ rs, IsInt32 r) :
    (writeRunes recorder [] rs).2.map stringRunes = [replaced rs] := by
  rw [C30_written_bytes rs h]
  simp only [List.map_cons, List.map_nil]
  rw [stringRunes_utf8s _ (replaced_scalar rs)]

/-- **C30.** For texts of scalar values, nothing is lost. -/
theorem C30_round_trip (rs : List Rune) (h : ∀ r ∈ rs, IsScalar r) :
    (writeRunes recorder [] rs).2.map stringRunes = [rs] := by
  rw [C30_read_back rs (fun r hr => by
    obtain ⟨h1, h2, _⟩ := h r hr
    exact ⟨by omega, by omega⟩)]
  congr 1
  unfold replaced
  refine (List.map_congr_left (g := id) ?_).trans (List.map_id rs)
  intro r hr
  rw [if_pos (h r hr)]; rfl

/-- **C30.** The same for WriteRune. -/
theorem C30_write_rune (r : Rune) (h : IsInt32 r) :
    (writeRune recorder [] r).2 = [utf8 (if IsScalar r then r else 0xFFFD)] := by
  unfold writeRune
  rw [runeBytes_eq]
  split
  · rename_i hr; rw [encodeRune_scalar hr]; rfl
  · rename_i hr; rw [encodeRune_other h hr]; rfl

example : (writeRunes recorder [] [0x41, 0xE9, 0x20AC, 0x1F600, -5]).2 =
    [[0x41, 0xC3, 0xA9, 0xE2, 0x82, 0xAC, 0xF0, 0x9F, 0x98, 0x80, 0xEF, 0xBF, 0xBD]] := by decide

/-- Writing rune by rune. -/
def writeEach (w : IOWriter σ ε) : σ → List Rune → σ
  | st, [] => st
  | st, r :: rs => writeEach w (writeRune w st r).2 rs

theorem writeEach_recorder (rs : List Rune) : ∀ calls, writeEach recorder calls rs =
    calls ++ rs.map encodeRune := by
  induction rs with
  | nil => intro calls; simp [writeEach]
  | cons r rs ih =>
    intro calls
    simp only [writeEach, ih]
    simp [writeRune, recorder, runeBytes_eq]

/-- **C31.** WriteRunes makes a single call, with the same bytes as those handed over, rune by rune, by
WriteRune, which makes one call for each rune. -/
theorem C31_same_bytes (rs : List Rune) :
    ∃ bytes, (writeRunes recorder [] rs).2 = [bytes] ∧
      (writeEach recorder [] rs).length = rs.length ∧ bytes = (writeEach recorder [] rs).flatten := by
  refine ⟨rs.flatMap encodeRune, ?_, ?_, ?_⟩
  · unfold writeRunes; rw [writeRunesLoop_eq]; rfl
  · simp [writeEach_recorder]
  · rw [writeEach_recorder]; simp [List.flatMap_def]

/-- **C31.** Whatever the underlying writer does, the count and the error returned are its own, and it is
called on the bytes above. -/
theorem C31_passes_result (w : IOWriter σ ε) (st : σ) (rs : List Rune) (r : Rune) (bytes : List Nat) :
    ((writeRunes recorder [] rs).2 = [bytes] → writeRunes w st rs = w st bytes) ∧
    ((writeRune recorder [] r).2 = [bytes] → writeRune w st r = w st bytes) := by
  constructor
  · intro h
    have : writeRunesLoop rs [] = bytes := by
      have := h
      unfold writeRunes recorder at this
      simpa using this
    unfold writeRunes; rw [this]
  · intro h
    have : runeBytes r = bytes := by
      have := h
      unfold writeRune recorder at this
      simpa using this
    unfold writeRune; rw [this]

/-- A writer which fails after 3 bytes. -/
example : (writeRunes (fun (_ : Unit) b => if b.length > 3 then ((3, some "short write"), ()) else
    ((b.length, none), ())) () [0x20AC, 0x41]).1 = (3, some "short write") := by decide

/-! ## C32, C33, C34 -/

/-- The calls, on the model. -/
def readerCall (mem : List Rune) (r : SliceReader) : ReaderOp → ReaderOut × SliceReader
  | .read => match r.readRune mem with
    | .ok (none, r) => (.eof, r)
    | .ok (some (x, n), r) => (.rune x n, r)
    | .error _ => (.panic, r)
  | .seekStart o => match r.seek o .start with
    | (some p, r) => (.position p, r)
    | (none, r) => (.outOfRange, r)
  | .seekCurrent o => match r.seek o .current with
    | (some p, r) => (.position p, r)
    | (none, r) => (.outOfRange, r)
  | .seekEnd o => match r.seek o .end_ with
    | (some p, r) => (.position p, r)
    | (none, r) => (.outOfRange, r)
  | .runes => match r.rest mem with
    | .ok v => (.runes (v.elems mem), r)
    | .error _ => (.panic, r)
  | .slice a b => match r.slice mem a b with
    | .ok v => (.runes (v.elems mem), r)
    | .error _ => (.panic, r)
  | .slices os => match r.slices mem os with
    | .ok vs => (.groups (vs.map (View.elems mem)), r)
    | .error _ => (.panic, r)

/-- A history of calls, on the model. -/
def readerHistory (mem : List Rune) : SliceReader → List ReaderOp → List ReaderOut × SliceReader
  | r, [] => ([], r)
  | r, op :: ops =>
    ((readerCall mem r op).1 :: (readerHistory mem (readerCall mem r op).2 ops).1,
      (readerHistory mem (readerCall mem r op).2 ops).2)

/-- Offsets of Seek are of type `int64`. -/
def OpInt64 : ReaderOp → Prop
  | .seekStart o | .seekCurrent o | .seekEnd o => -(2 ^ 63) ≤ o ∧ o < 2 ^ 63
  | _ => True

theorem sizeOf_eq (r : Rune) : runeLen r = Spec.sizeOf r := by
  unfold Spec.sizeOf
  split
  · rename_i h; exact runeLen_scalar h
  · rename_i h
    unfold IsScalar at h
    unfold runeLen
    split
    · rfl
    rw [if_neg (by omega), if_neg (by omega)]
    split
    · rfl
    rename_i h1
    simp at h1
    rw [if_neg (by omega), if_neg (by omega)]

theorem sub_range (mem : List Rune) (v : View) (h : v.Valid mem) (a b : Int) :
    (∃ w, v.sub mem a b = .ok w ∧ rangeOf (mem.drop v.off) a b = some (w.elems mem)) ∨
    ((∃ e, v.sub mem a b = .error e) ∧ rangeOf (mem.drop v.off) a b = none) := by
  unfold View.Valid at h
  unfold View.sub rangeOf
  by_cases c : 0 ≤ a ∧ a ≤ b ∧ v.off + b ≤ mem.length
  · rw [if_pos c, if_pos (by rw [List.length_drop]; omega)]
    refine Or.inl ⟨_, rfl, ?_⟩
    simp [View.elems]
  · rw [if_neg c, if_neg (by rw [List.length_drop]; omega)]
    exact Or.inr ⟨⟨_, rfl⟩, rfl⟩

theorem slicesLoop_ranges (mem : List Rune) (v : View) (h : v.Valid mem) :
    ∀ (os : List Int) (ps : List (Int × Int)), pairs os = some ps →
    (∃ ws, slicesLoop mem v os = .ok ws ∧ ranges (mem.drop v.off) ps = some (ws.map (View.elems mem))) ∨
    ((∃ e, slicesLoop mem v os = .error e) ∧ ranges (mem.drop v.off) ps = none)
  | [], ps, hp => by
    simp only [pairs, Option.some.injEq] at hp; subst hp
    exact Or.inl ⟨[], rfl, rfl⟩
  | [_], ps, hp => by simp [pairs] at hp
  | a :: b :: rest, ps, hp => by
    simp only [pairs, Option.map_eq_some_iff] at hp
    obtain ⟨ps', h1, h2⟩ := hp
    subst h2
    simp only [slicesLoop, ranges]
    rcases sub_range mem v h a b with ⟨w, e1, e2⟩ | ⟨⟨e, e1⟩, e2⟩
    · rcases slicesLoop_ranges mem v h rest ps' h1 with ⟨ws, e3, e4⟩ | ⟨⟨e, e3⟩, e4⟩
      · exact Or.inl ⟨w :: ws, by rw [e1, e3]; rfl, by rw [e2, e4]; rfl⟩
      · exact Or.inr ⟨⟨e, by rw [e1, e3]; rfl⟩, by rw [e2, e4]⟩
    · exact Or.inr ⟨⟨e, by rw [e1]; rfl⟩, by rw [e2]⟩

theorem pairs_none : ∀ os : List Int, (pairs os = none ↔ os.length % 2 ≠ 0)
  | [] => by simp [pairs]
  | [_] => by simp [pairs]
  | a :: b :: rest => by
    simp only [pairs, Option.map_eq_none_iff, List.length_cons]
    rw [pairs_none rest]; omega

theorem seek_moveTo (v : View) (pos : Nat) (o target : Int) (w : Whence) (text : List Rune)
    (ht : text.length = v.len) (hpos : pos ≤ v.len) (hlen : (v.len : Int) < 2 ^ 63)
    (ho : -(2 ^ 63) ≤ o ∧ o < 2 ^ 63)
    (hw : (w = .start ∧ target = o) ∨ (w = .current ∧ target = pos + o) ∨ (w = .end_ ∧ target = v.len + o)) :
    (match SliceReader.seek ⟨pos, v⟩ o w with
      | (some p, r) => ((ReaderOut.position p, r) : ReaderOut × SliceReader)
      | (none, r) => (.outOfRange, r)) =
      ((moveTo text pos target).1, ⟨((moveTo text pos target).2 : Nat), v⟩) := by
  have key : ∀ p : Int, (p < 0 ∨ p > v.len ↔ ¬ (0 ≤ target ∧ target ≤ v.len)) →
      (0 ≤ target ∧ target ≤ v.len → p = target) →
      (match (if (p < 0 || p > v.len) = true then ((none, ⟨pos, v⟩) : Option Int × SliceReader)
        else (some p, ⟨p, v⟩)) with
      | (some p, r) => ((ReaderOut.position p, r) : ReaderOut × SliceReader)
      | (none, r) => (.outOfRange, r)) =
      ((moveTo text pos target).1, ⟨((moveTo text pos target).2 : Nat), v⟩) := by
    intro p h1 h2
    unfold moveTo
    rw [ht]
    by_cases c : 0 ≤ target ∧ target ≤ v.len
    · have : ¬ ((p < 0 || p > v.len) = true) := by
        simp only [Bool.or_eq_true, decide_eq_true_eq]
        exact fun h => (h1.mp h) c
      rw [if_neg this, if_pos c, h2 c]
      have : ((target.toNat : Nat) : Int) = target := by omega
      simp only [this]
    · have : (p < 0 || p > v.len) = true := by
        simp only [Bool.or_eq_true, decide_eq_true_eq]
        exact h1.mpr c
      rw [if_pos this, if_neg c]
  rcases hw with ⟨rfl, rfl⟩ | ⟨rfl, rfl⟩ | ⟨rfl, rfl⟩
  · exact key target (by omega) (fun _ => rfl)
  · refine key (add64 pos o) ?_ ?_ <;> unfold add64 <;> omega
  · refine key (add64 v.len o) ?_ ?_ <;> unfold add64 <;> omega

theorem elems_get {mem : List Rune} {v : View} (h : v.Valid mem) (pos : Nat) (hp : pos < v.len) :
    ∃ x, (v.elems mem)[pos]? = some x ∧ v.get mem pos = .ok x := by
  have hl := View.elems_length h
  have : pos < (v.elems mem).length := by omega
  exact ⟨(v.elems mem)[pos], List.getElem?_eq_getElem this, index_ok this⟩

/-- One call on the model is one call of the specification. -/
theorem readerCall_spec (mem : List Rune) (v : View) (hv : v.Valid mem) (hlen : (v.len : Int) < 2 ^ 63)
    (pos : Nat) (hpos : pos ≤ v.len) (op : ReaderOp) (ho : OpInt64 op) :
    readerCall mem ⟨pos, v⟩ op = ((readerStep (v.elems mem) (mem.drop v.off) pos op).1,
      ⟨((readerStep (v.elems mem) (mem.drop v.off) pos op).2 : Nat), v⟩) ∧
    (readerStep (v.elems mem) (mem.drop v.off) pos op).2 ≤ v.len := by
  have hl := View.elems_length hv
  have hmove : ∀ t, (moveTo (v.elems mem) pos t).2 ≤ v.len := by
    intro t
    unfold moveTo
    split
    · simp only; omega
    · exact hpos
  cases op with
  | read =>
    by_cases c : pos < v.len
    · obtain ⟨x, h1, h2⟩ := elems_get hv pos c
      have e : SliceReader.readRune mem ⟨pos, v⟩ = .ok (some (x, runeLen x), ⟨(pos : Int) + 1, v⟩) := by
        unfold SliceReader.readRune
        simp only
        rw [if_neg (by omega), h2]; rfl
      unfold readerCall readerStep
      rw [e, h1]
      simp only [sizeOf_eq]
      exact ⟨rfl, c⟩
    · have e : SliceReader.readRune mem ⟨pos, v⟩ = .ok (none, ⟨pos, v⟩) := by
        unfold SliceReader.readRune
        simp only
        rw [if_pos (by omega)]
      have h1 : (v.elems mem)[pos]? = none := by simp; omega
      unfold readerCall readerStep
      rw [e, h1]
      exact ⟨rfl, hpos⟩
  | seekStart o =>
    refine ⟨?_, hmove _⟩
    exact seek_moveTo v pos o o .start _ hl hpos hlen ho (Or.inl ⟨rfl, rfl⟩)
  | seekCurrent o =>
    refine ⟨?_, hmove _⟩
    exact seek_moveTo v pos o _ .current _ hl hpos hlen ho (Or.inr (Or.inl ⟨rfl, rfl⟩))
  | seekEnd o =>
    refine ⟨?_, hmove _⟩
    exact seek_moveTo v pos o _ .end_ _ hl hpos hlen ho (Or.inr (Or.inr ⟨rfl, by rw [hl]⟩))
  | runes =>
    refine ⟨?_, hpos⟩
    have hv' := hv
    unfold View.Valid at hv'
    have e : SliceReader.rest mem ⟨pos, v⟩ = .ok ⟨v.off + pos, v.len - pos⟩ := by
      unfold SliceReader.rest View.sub
      simp only
      rw [if_pos (by omega)]
      simp
    unfold readerCall readerStep
    rw [e]
    simp [View.elems, List.drop_take]
  | slice a b =>
    refine ⟨?_, hpos⟩
    unfold readerCall readerStep SliceReader.slice
    rcases sub_range mem v hv a b with ⟨w, e1, e2⟩ | ⟨⟨e, e1⟩, e2⟩
    · simp only [e1, e2]; rfl
    · simp only [e1, e2]; rfl
  | slices os =>
    refine ⟨?_, hpos⟩
    cases hp : pairs os with
    | none =>
      have e : SliceReader.slices mem ⟨pos, v⟩ os = .error .explicit := by
        unfold SliceReader.slices; rw [if_pos ((pairs_none os).mp hp)]
      simp only [readerCall, readerStep, e, hp]; rfl
    | some ps =>
      have e : SliceReader.slices mem ⟨pos, v⟩ os = slicesLoop mem v os := by
        unfold SliceReader.slices
        rw [if_neg (by
          intro hc
          rw [(pairs_none os).mpr hc] at hp; cases hp)]
      rcases slicesLoop_ranges mem v hv os ps hp with ⟨ws, e1, e2⟩ | ⟨⟨e', e1⟩, e2⟩
      · simp only [readerCall, readerStep, e, hp, e1, e2, Option.bind_some]; rfl
      · simp only [readerCall, readerStep, e, hp, e1, e2, Option.bind_some]; rfl

theorem readerHistory_spec (mem : List Rune) (v : View) (hv : v.Valid mem) (hlen : (v.len : Int) < 2 ^ 63)
    (ops : List ReaderOp) (ho : ∀ op ∈ ops, OpInt64 op) : ∀ pos : Nat, pos ≤ v.len →
    readerHistory mem ⟨pos, v⟩ ops = ((readerRun (v.elems mem) (mem.drop v.off) pos ops).1,
      ⟨((readerRun (v.elems mem) (mem.drop v.off) pos ops).2 : Nat), v⟩) ∧
    (readerRun (v.elems mem) (mem.drop v.off) pos ops).2 ≤ v.len := by
  induction ops with
  | nil => intro pos hpos; exact ⟨rfl, hpos⟩
  | cons op ops ih =>
    intro pos hpos
    obtain ⟨h1, h2⟩ := readerCall_spec mem v hv hlen pos hpos op (ho op (by simp))
    obtain ⟨h3, h4⟩ := ih (fun x hx => ho x (by simp [hx])) _ h2
    constructor
    · simp only [readerHistory, readerRun, h1, h3]
    · exact h4

/-- **C32.** After any history of calls on a new reader, all that was returned and the position are those
of the specification; the position lies within the text. -/
theorem C32_history (mem : List Rune) (v : View) (hv : v.Valid mem) (hlen : (v.len : Int) < 2 ^ 63)
    (ops : List ReaderOp) (ho : ∀ op ∈ ops, OpInt64 op) :
    (readerHistory mem (newSliceReader v) ops).1 =
      (readerRun (v.elems mem) (mem.drop v.off) 0 ops).1 ∧
    (readerHistory mem (newSliceReader v) ops).2.offset =
      (readerRun (v.elems mem) (mem.drop v.off) 0 ops).2 ∧
    0 ≤ (readerHistory mem (newSliceReader v) ops).2.offset ∧
    (readerHistory mem (newSliceReader v) ops).2.offset ≤ v.len := by
  obtain ⟨h1, h2⟩ := readerHistory_spec mem v hv hlen ops ho 0 (Nat.zero_le _)
  have e : newSliceReader v = ⟨(0 : Nat), v⟩ := rfl
  rw [e, h1]
  refine ⟨rfl, rfl, ?_, ?_⟩
  · exact Int.natCast_nonneg _
  · exact Int.ofNat_le.mpr h2

/-- The calls that look only. -/
def Looks : ReaderOp → Prop
  | .runes | .slice _ _ | .slices _ => True
  | _ => False

/-- After any history the reader is at some position within the text; the next call is given by the
specification at this position. -/
theorem after_history (mem : List Rune) (v : View) (hv : v.Valid mem) (hlen : (v.len : Int) < 2 ^ 63)
    (ops : List ReaderOp) (ho : ∀ op ∈ ops, OpInt64 op) :
    ∃ pos : Nat, pos ≤ (v.elems mem).length ∧ (readerHistory mem (newSliceReader v) ops).2 = ⟨pos, v⟩ ∧
    ∀ op, OpInt64 op → readerCall mem (readerHistory mem (newSliceReader v) ops).2 op =
      ((readerStep (v.elems mem) (mem.drop v.off) pos op).1,
        ⟨((readerStep (v.elems mem) (mem.drop v.off) pos op).2 : Nat), v⟩) := by
  obtain ⟨h1, h2⟩ := readerHistory_spec mem v hv hlen ops ho 0 (Nat.zero_le _)
  have e : newSliceReader v = ⟨(0 : Nat), v⟩ := rfl
  rw [e, h1]
  refine ⟨_, by rw [View.elems_length hv]; exact h2, rfl, fun op hop => ?_⟩
  exact (readerCall_spec mem v hv hlen _ h2 op hop).1

/-- **C32.** Reading: the rune at the position, which moves by one; at the end, EOF, and the reader stays
there. -/
theorem C32_sequential (mem : List Rune) (v : View) (hv : v.Valid mem) (hlen : (v.len : Int) < 2 ^ 63)
    (ops : List ReaderOp) (ho : ∀ op ∈ ops, OpInt64 op) :
    ∃ pos : Nat, (readerHistory mem (newSliceReader v) ops).2.offset = pos ∧
      (∀ h : pos < (v.elems mem).length,
        (readerCall mem (readerHistory mem (newSliceReader v) ops).2 .read).1 =
          .rune (v.elems mem)[pos] (Spec.sizeOf (v.elems mem)[pos]) ∧
        (readerCall mem (readerHistory mem (newSliceReader v) ops).2 .read).2.offset = pos + 1) ∧
      (¬ pos < (v.elems mem).length →
        pos = (v.elems mem).length ∧
        readerCall mem (readerHistory mem (newSliceReader v) ops).2 .read =
          (.eof, (readerHistory mem (newSliceReader v) ops).2)) := by
  obtain ⟨pos, hp, e, hc⟩ := after_history mem v hv hlen ops ho
  refine ⟨pos, by rw [e], fun h => ?_, fun h => ⟨by omega, ?_⟩⟩
  · rw [hc .read trivial]
    simp [readerStep, List.getElem?_eq_getElem h]
  · rw [hc .read trivial, e]
    have : (v.elems mem)[pos]? = none := by simp; omega
    simp [readerStep, this]

/-- Reading the whole text, twice too much: a text of two runes, in an array of four. -/
example : (readerHistory [7, 0x41, 0x42, 9] (newSliceReader ⟨1, 2⟩) [.read, .read, .read, .read]).1 =
    [.rune 0x41 1, .rune 0x42 1, .eof, .eof] := by decide

/-- **C33.** Seek moves to the target if it lies within the text and returns it; otherwise, it reports an
error and does not move. All offsets of 64 bits are covered. -/
theorem C33_seek (mem : List Rune) (v : View) (hv : v.Valid mem) (hlen : (v.len : Int) < 2 ^ 63)
    (ops : List ReaderOp) (ho : ∀ op ∈ ops, OpInt64 op) (o : Int) (h1 : -(2 ^ 63) ≤ o) (h2 : o < 2 ^ 63) :
    ∀ (op : ReaderOp) (target : Int),
      ((op = .seekStart o ∧ target = o) ∨
       (op = .seekCurrent o ∧ target = (readerHistory mem (newSliceReader v) ops).2.offset + o) ∨
       (op = .seekEnd o ∧ target = v.len + o)) →
      (0 ≤ target ∧ target ≤ v.len →
        readerCall mem (readerHistory mem (newSliceReader v) ops).2 op = (.position target, ⟨target, v⟩)) ∧
      (¬ (0 ≤ target ∧ target ≤ v.len) →
        readerCall mem (readerHistory mem (newSliceReader v) ops).2 op =
          (.outOfRange, (readerHistory mem (newSliceReader v) ops).2)) := by
  intro op target hop
  obtain ⟨pos, hp, e, hc⟩ := after_history mem v hv hlen ops ho
  have hl := View.elems_length hv
  have key : ∀ t, (0 ≤ t ∧ t ≤ (v.len : Int) → moveTo (v.elems mem) pos t = (.position t, t.toNat)) ∧
      (¬ (0 ≤ t ∧ t ≤ (v.len : Int)) → moveTo (v.elems mem) pos t = (.outOfRange, pos)) := by
    intro t
    unfold moveTo
    rw [hl]
    exact ⟨fun h => if_pos h, fun h => if_neg h⟩
  have step : readerCall mem (readerHistory mem (newSliceReader v) ops).2 op =
      ((moveTo (v.elems mem) pos target).1, ⟨((moveTo (v.elems mem) pos target).2 : Nat), v⟩) := by
    rcases hop with ⟨rfl, rfl⟩ | ⟨rfl, rfl⟩ | ⟨rfl, rfl⟩
    · exact hc _ ⟨h1, h2⟩
    · rw [hc (.seekCurrent o) ⟨h1, h2⟩, e]; rfl
    · rw [hc (.seekEnd o) ⟨h1, h2⟩]
      simp only [readerStep, hl]
  constructor
  · intro h
    rw [step, (key target).1 h]
    have : ((target.toNat : Nat) : Int) = target := by omega
    simp only [this]
  · intro h
    rw [step, (key target).2 h, e]

/-- **C33.** With any other `whence`, whatever the offset, Seek does not move and returns the position. -/
theorem C33_unknown_whence (mem : List Rune) (v : View) (hv : v.Valid mem) (hlen : (v.len : Int) < 2 ^ 63)
    (ops : List ReaderOp) (ho : ∀ op ∈ ops, OpInt64 op) (o : Int) :
    (readerHistory mem (newSliceReader v) ops).2.seek o .other =
      (some (readerHistory mem (newSliceReader v) ops).2.offset, (readerHistory mem (newSliceReader v) ops).2) := by
  obtain ⟨pos, hp, e, _⟩ := after_history mem v hv hlen ops ho
  rw [View.elems_length hv] at hp
  rw [e]
  simp only [SliceReader.seek]
  rw [if_neg (by simp; omega)]

/-- An offset whose addition overflows 64 bits. -/
example : readerCall [1, 2, 3] ⟨2, ⟨0, 3⟩⟩ (.seekCurrent (2 ^ 63 - 1)) = (.outOfRange, ⟨2, ⟨0, 3⟩⟩) := by
  decide
example : readerCall [1, 2, 3] ⟨2, ⟨0, 3⟩⟩ (.seekEnd (-3)) = (.position 0, ⟨0, ⟨0, 3⟩⟩) := by decide

/-- **C34.** After any history, Runes returns the unread runes, Slice the runes asked for, and neither
they nor Slices move the reader. -/
theorem C34_look (mem : List Rune) (v : View) (hv : v.Valid mem) (hlen : (v.len : Int) < 2 ^ 63)
    (ops : List ReaderOp) (ho : ∀ op ∈ ops, OpInt64 op) :
    (∃ pos : Nat, (readerHistory mem (newSliceReader v) ops).2.offset = pos ∧
      (readerCall mem (readerHistory mem (newSliceReader v) ops).2 .runes).1 =
        .runes ((v.elems mem).drop pos)) ∧
    (∀ a b : Nat, a ≤ b → b ≤ v.len →
      (readerCall mem (readerHistory mem (newSliceReader v) ops).2 (.slice a b)).1 =
        .runes (((v.elems mem).drop a).take (b - a))) ∧
    (∀ op, Looks op → (readerCall mem (readerHistory mem (newSliceReader v) ops).2 op).2 =
      (readerHistory mem (newSliceReader v) ops).2) := by
  obtain ⟨pos, hp, e, hc⟩ := after_history mem v hv hlen ops ho
  have hl := View.elems_length hv
  have hv' := hv
  unfold View.Valid at hv'
  refine ⟨⟨pos, by rw [e], by rw [hc .runes trivial]; rfl⟩, fun a b h1 h2 => ?_, fun op hop => ?_⟩
  · rw [hc (.slice a b) trivial]
    simp only [readerStep, rangeOf]
    rw [if_pos (by rw [List.length_drop]; omega)]
    simp only [Option.map_some, Option.getD_some, ReaderOut.runes.injEq, View.elems]
    rw [List.drop_take, List.take_take]
    congr 1
    omega
  · rw [hc op (by cases op <;> first | exact hop.elim | exact True.intro)]
    rw [e]
    cases op <;> first | exact hop.elim | rfl

/-- **C34.** Slices returns the runes between each pair of offsets, from any state. -/
theorem C34_slices (mem : List Rune) (v : View) (hv : v.Valid mem) (r : SliceReader) (hr : r.runes = v)
    (parts : List (List Rune × List Rune × List Rune))
    (hparts : ∀ p ∈ parts, p.1 ++ p.2.1 ++ p.2.2 = v.elems mem) :
    (readerCall mem r (.slices (parts.flatMap (fun p => [(p.1.length : Int), (p.1.length + p.2.1.length : Nat)])))) =
      (.groups (parts.map (fun p => p.2.1)), r) := by
  subst hr
  have hlen : ∀ ps : List (List Rune × List Rune × List Rune),
      (ps.flatMap (fun p => [(p.1.length : Int), (p.1.length + p.2.1.length : Nat)])).length % 2 = 0 := by
    intro ps
    induction ps with
    | nil => rfl
    | cons p ps ih => simp only [List.flatMap_cons, List.length_append, List.length_cons, List.length_nil]; omega
  have hloop : ∃ ws, slicesLoop mem r.runes
      (parts.flatMap (fun p => [(p.1.length : Int), (p.1.length + p.2.1.length : Nat)])) = .ok ws ∧
      ws.map (View.elems mem) = parts.map (fun p => p.2.1) := by
    clear hlen
    induction parts with
    | nil => exact ⟨[], rfl, rfl⟩
    | cons p parts ih =>
      obtain ⟨ws, h1, h2⟩ := ih (fun q hq => hparts q (by simp [hq]))
      have hp := hparts p (by simp)
      have hl := View.elems_length hv
      rw [← hp] at hl
      simp only [List.length_append] at hl
      unfold View.Valid at hv
      refine ⟨⟨r.runes.off + p.1.length, p.2.1.length⟩ :: ws, ?_, ?_⟩
      · simp only [List.flatMap_cons, List.cons_append, List.nil_append, slicesLoop]
        have : View.sub mem r.runes (p.1.length : Int) ((p.1.length + p.2.1.length : Nat) : Int) =
            .ok ⟨r.runes.off + p.1.length, p.2.1.length⟩ := by
          unfold View.sub
          rw [if_pos (by omega)]
          congr 2
          omega
        rw [this, h1]; rfl
      · simp only [List.map_cons, h2, List.cons.injEq, and_true]
        have : ((r.runes.elems mem).drop p.1.length).take p.2.1.length = p.2.1 := by
          rw [← hp]; simp
        refine Eq.trans ?_ this
        simp only [View.elems, List.drop_take, List.take_take, List.drop_drop]
        congr 1
        omega
  obtain ⟨ws, h1, h2⟩ := hloop
  have e : SliceReader.slices mem r
      (parts.flatMap (fun p => [(p.1.length : Int), (p.1.length + p.2.1.length : Nat)])) = .ok ws := by
    unfold SliceReader.slices
    rw [if_neg (by rw [hlen]; simp), h1]
  simp only [readerCall, e, h2]

/-- **C34.** Slices panics on an odd number of offsets. -/
theorem C34_odd_panics (mem : List Rune) (r : SliceReader) (os : List Int) (h : os.length % 2 = 1) :
    r.slices mem os = .error .explicit := by
  unfold SliceReader.slices
  rw [if_pos (by omega)]

example : (readerCall [1, 2, 3, 4] ⟨3, ⟨0, 4⟩⟩ (.slices [0, 2, 1, 1])).1 = .groups [[1, 2], []] := by decide

/-! ## C35 -/

theorem byteLoop_spec (c : List Rune) (hc : ∀ r ∈ c, IsScalar r) (sb eb : Int) :
    ∀ (b : List Rune), (∀ r ∈ b, IsScalar r) → ∀ (s e off : Int), sb ≤ off → eb = off + (utf8s b).length →
      byteLoop sb eb (b ++ c) s e off = (s, e + b.length)
  | [], _, s, e, off, h1, h2 => by
    cases c with
    | nil => simp [byteLoop]
    | cons r c =>
      have := utf8_length r
      simp only [utf8s, List.flatMap_nil, List.length_nil] at h2
      simp only [List.nil_append, byteLoop]
      rw [if_neg (show ¬ off < sb by omega), runeLen_scalar (hc r (by simp)), if_pos (by omega)]
      simp
  | r :: b, hb, s, e, off, h1, h2 => by
    have hr := runeLen_scalar (hb r (by simp))
    have := utf8_length r
    simp only [utf8s, List.flatMap_cons, List.length_append] at h2
    simp only [List.cons_append, byteLoop]
    rw [if_neg (show ¬ off < sb by omega), hr, if_neg (by omega),
      byteLoop_spec c hc sb eb b (fun x hx => hb x (by simp [hx])) s (e + 1) _ (by omega) (by
        simp only [utf8s]; omega)]
    simp only [List.length_cons, Prod.mk.injEq, true_and]
    omega

theorem byteLoop_spec' (b c : List Rune) (hb : ∀ r ∈ b, IsScalar r) (hc : ∀ r ∈ c, IsScalar r) (sb eb : Int) :
    ∀ (a : List Rune), (∀ r ∈ a, IsScalar r) → ∀ (s e off : Int), sb = off + (utf8s a).length →
      eb = sb + (utf8s b).length →
      byteLoop sb eb (a ++ (b ++ c)) s e off = (s + a.length, e + a.length + b.length)
  | [], _, s, e, off, h1, h2 => by
    simp only [utf8s, List.flatMap_nil, List.length_nil] at h1
    rw [List.nil_append, byteLoop_spec c hc sb eb b hb s e off (by omega) (by omega)]
    simp
  | r :: a, ha, s, e, off, h1, h2 => by
    have hr := runeLen_scalar (ha r (by simp))
    have := utf8_length r
    simp only [utf8s, List.flatMap_cons, List.length_append] at h1
    simp only [List.cons_append, byteLoop]
    have h3 : (0 : Int) ≤ ((a.flatMap utf8).length : Int) := Int.natCast_nonneg _
    have h4 : (0 : Int) ≤ ((utf8s b).length : Int) := Int.natCast_nonneg _
    rw [if_pos (show off < sb by omega), hr, if_neg (by omega),
      byteLoop_spec' b c hb hc sb eb a (fun x hx => ha x (by simp [hx])) (s + 1) (e + 1) _ (by
        simp only [utf8s]; omega) h2]
    simp only [List.length_cons, Prod.mk.injEq]
    omega

/-- **C35.** Each pair of byte offsets that frames a part of the text in its encoding gives this part,
from any state of the reader. -/
theorem C35_byte_ranges (mem : List Rune) (r : SliceReader) (hv : r.runes.Valid mem)
    (hs : ∀ x ∈ r.runes.elems mem, IsScalar x)
    (parts : List (List Rune × List Rune × List Rune))
    (hparts : ∀ p ∈ parts, p.1 ++ p.2.1 ++ p.2.2 = r.runes.elems mem) :
    (r.sliceFromByteOffsets mem
      (parts.flatMap (fun p => [((utf8s p.1).length : Int), ((utf8s (p.1 ++ p.2.1)).length : Int)]))).map
        (fun vs => vs.map (View.elems mem)) = .ok (parts.map (fun p => p.2.1)) := by
  have hlen : ∀ ps : List (List Rune × List Rune × List Rune),
      (ps.flatMap (fun p => [((utf8s p.1).length : Int), ((utf8s (p.1 ++ p.2.1)).length : Int)])).length % 2 = 0 := by
    intro ps
    induction ps with
    | nil => rfl
    | cons p ps ih => simp only [List.flatMap_cons, List.length_append, List.length_cons, List.length_nil]; omega
  have hloop : ∃ ws, byteSlicesLoop mem r.runes
      (parts.flatMap (fun p => [((utf8s p.1).length : Int), ((utf8s (p.1 ++ p.2.1)).length : Int)])) = .ok ws ∧
      ws.map (View.elems mem) = parts.map (fun p => p.2.1) := by
    clear hlen
    induction parts with
    | nil => exact ⟨[], rfl, rfl⟩
    | cons p parts ih =>
      obtain ⟨ws, h1, h2⟩ := ih (fun q hq => hparts q (by simp [hq]))
      have hp := hparts p (by simp)
      have hl := View.elems_length hv
      rw [← hp] at hl
      simp only [List.length_append] at hl
      have hv' := hv
      unfold View.Valid at hv'
      refine ⟨⟨r.runes.off + p.1.length, p.2.1.length⟩ :: ws, ?_, ?_⟩
      · simp only [List.flatMap_cons, List.cons_append, List.nil_append, byteSlicesLoop]
        have hb : byteLoop ((utf8s p.1).length : Int) ((utf8s (p.1 ++ p.2.1)).length : Int)
            (r.runes.elems mem) 0 0 0 = ((p.1.length : Int), (p.1.length : Int) + (p.2.1.length : Int)) := by
          have hmem : ∀ x, x ∈ p.1 ∨ x ∈ p.2.1 ∨ x ∈ p.2.2 → IsScalar x := by
            intro x hx
            apply hs
            rw [← hp]
            simp only [List.mem_append]
            rcases hx with h | h | h
            · exact Or.inl (Or.inl h)
            · exact Or.inl (Or.inr h)
            · exact Or.inr h
          rw [← hp, List.append_assoc, byteLoop_spec' p.2.1 p.2.2 (fun x hx => hmem x (Or.inr (Or.inl hx)))
            (fun x hx => hmem x (Or.inr (Or.inr hx))) _ _ p.1 (fun x hx => hmem x (Or.inl hx)) 0 0 0
            (by omega) (by simp [utf8s])]
          simp
        have : View.sub mem r.runes (p.1.length : Int) ((p.1.length : Int) + (p.2.1.length : Int)) =
            .ok ⟨r.runes.off + p.1.length, p.2.1.length⟩ := by
          unfold View.sub
          rw [if_pos (by omega)]
          congr 2
          omega
        rw [hb]
        simp only
        rw [this, h1]; rfl
      · simp only [List.map_cons, h2, List.cons.injEq, and_true]
        have : ((r.runes.elems mem).drop p.1.length).take p.2.1.length = p.2.1 := by
          rw [← hp]; simp
        refine Eq.trans ?_ this
        simp only [View.elems, List.drop_take, List.take_take, List.drop_drop]
        congr 1
        omega
  obtain ⟨ws, h1, h2⟩ := hloop
  unfold SliceReader.sliceFromByteOffsets
  rw [if_neg (by rw [hlen]; simp), h1]
  simp only [Except.map, h2]

/-- "aé中" with the byte offsets of "é" and of "é中". -/
example : SliceReader.sliceFromByteOffsets [0x61, 0xE9, 0x4E2D] ⟨2, ⟨0, 3⟩⟩ [1, 3, 1, 6] =
    .ok [⟨1, 1⟩, ⟨1, 2⟩] := by decide

/-- Outside of the statement of C35: offsets within a rune may panic. "é", with (1, 1). -/
example : SliceReader.sliceFromByteOffsets [0xE9] ⟨0, ⟨0, 1⟩⟩ [1, 1] = .error .slice := by decide

end Verif.Props
