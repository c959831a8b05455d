import Verif.Model.Embedded
import Verif.Model.Ansi
import Verif.Model.Attributes
import Verif.Model.Fields
import Verif.Model.Strings
import Verif.Props.Float64Cases

/-! # The tests of the repository, run on the model

The inputs and the expected results of the tests of the repository (`*_test.go`), run on the definitions of the
model. These are no proofs, and no theorem rests on them: they check that the model was copied faithfully from
the code. The test of the attributes only uses the state, and the functions with strings are used on runes. -/

namespace Verif.Checks
open Verif.Go Verif.Model

/-- The string made of some runes. -/
def str (l : List Rune) : String := String.ofList (l.map fun r : Int => Char.ofNat r.toNat)

/-- The strings made of the parts of a word; none for a panic. -/
def strs : Res (List (List Rune)) → Option (List String)
  | .ok l => some (l.map str)
  | .error _ => none

/-! ## terminal/ansi/ansi_test.go -/

/-- The text, the sequences and the remainder. -/
def stripped (s : String) : Option (String × String × String × String) :=
  let mem := runesOf s
  match Ansi.stripANSIFromRunes Env.ascii mem ⟨0, mem.length⟩ with
  | .error _ => none
  | .ok (t, mem') =>
    some (str ((t.text.map (·.elems mem')).getD []), str ((t.start.map (·.elems mem')).getD []),
      str ((t.stop.map (·.elems mem')).getD []), str (t.remainder.elems mem'))

/-! TestStripANSI (terminal/ansi/ansi_test.go:17-209) -/

#guard stripped "ABC" = some ("ABC", "", "", "")
#guard stripped "\x1b[43;30mČeská řeřicha\x1b[00m" = some ("Česká řeřicha", "\x1b[43;30m", "\x1b[00m", "")
#guard stripped "\x1b[43;30mČeská řeřicha" = some ("Česká řeřicha", "\x1b[43;30m", "", "")
#guard stripped "Česká řeřicha\x1b[00m" = some ("Česká řeřicha", "", "\x1b[00m", "")
#guard stripped "\x1b[43;30m\x1b[00m" = some ("", "\x1b[43;30m", "\x1b[00m", "")
#guard stripped "\x1b[43;30m\x1b[43;30mČeská řeřicha\x1b[00m\x1b[00m" = some ("", "\x1b[43;30m", "", "\x1b[43;30mČeská řeřicha\x1b[00m\x1b[00m")
#guard stripped "\x1b[43;30mČeská řeřicha\x1b[00m\x1b[00m" = some ("Česká řeřicha", "\x1b[43;30m", "\x1b[00m", "\x1b[00m")
#guard stripped "\x1b[00m" = some ("", "", "\x1b[00m", "")
#guard stripped "\x1b[43;30m\x1b[43;30mČeská řeřicha\x1b[00m\x1b[00m\x1b[43;30mČeská řeřicha2\x1b[00m" = some ("", "\x1b[43;30m", "", "\x1b[43;30mČeská řeřicha\x1b[00m\x1b[00m\x1b[43;30mČeská řeřicha2\x1b[00m")
#guard stripped "\x1b[43;30mČeská řeřicha\x1b[00m\x1b[00m\x1b[43;30mČeská řeřicha2\x1b[00m" = some ("Česká řeřicha", "\x1b[43;30m", "\x1b[00m", "\x1b[00m\x1b[43;30mČeská řeřicha2\x1b[00m")
#guard stripped "\x1b[00m\x1b[43;30mČeská řeřicha2\x1b[00m" = some ("", "", "\x1b[00m", "\x1b[43;30mČeská řeřicha2\x1b[00m")
#guard stripped "\x1b[43;30mČeská řeřicha2\x1b[00m" = some ("Česká řeřicha2", "\x1b[43;30m", "\x1b[00m", "")
#guard stripped "\x1b[1mABC\x1b[1;2~\x1b[K\x1b[m" = some ("ABC\x1b[1;2~\x1b[K", "\x1b[1m", "\x1b[m", "")
#guard stripped "\x1b[1:2mABC\x1b[m\x1b[1:2;;~" = some ("ABC", "\x1b[1:2m", "\x1b[m", "\x1b[1:2;;~")
#guard stripped "\x1b[1:2;;~" = some ("\x1b[1:2;;~", "", "", "")
#guard stripped "\x1b[1;2;3;4mABC\x1b[1;2~\x1b[1:2:3:4m" = some ("ABC\x1b[1;2~", "\x1b[1;2;3;4m", "", "\x1b[1:2:3:4m")
#guard stripped "\x1b[1:2:3:4m" = some ("", "\x1b[1:2:3:4m", "", "")
#guard stripped "\x1b[4m\x1b[1;2~\x1b[m" = some ("\x1b[1;2~", "\x1b[4m", "", "\x1b[m")
#guard stripped "\x1b[m" = some ("", "", "\x1b[m", "")
#guard stripped "\x1b[1;2~\x1b[4m" = some ("\x1b[1;2~", "", "", "\x1b[4m")
#guard stripped "\x1b[4m" = some ("", "\x1b[4m", "", "")
#guard stripped "\x1b[1;2m\x1bX\x1b[m" = some ("\x1bX", "\x1b[1;2m", "\x1b[m", "")
#guard stripped "\x1b[1;2m\x1b\x1b" = some ("\x1b\x1b", "\x1b[1;2m", "", "")
#guard stripped "\x1b" = some ("\x1b", "", "", "")
#guard stripped "" = some ("", "", "", "")

/-- The sequence, its kind and what is left to read. -/
def decoded (s : String) : Option (Option String × Ansi.Kind × String) :=
  let mem := runesOf s
  match Ansi.decodeANSISequence Env.ascii mem (newSliceReader ⟨0, mem.length⟩) with
  | .error _ => none
  | .ok (v, k, rdr) =>
    match rdr.rest mem with
    | .error _ => none
    | .ok r => some (v.map (fun v => str (v.elems mem)), k, str (r.elems mem))

/-! TestDecodeANSISequence (terminal/ansi/ansi_test.go:211-372) -/

#guard decoded "\x1b[12mTEXT" = some (some "\x1b[12m", .start, "TEXT")
#guard decoded "\x1b[12;1;2;3mTEXT" = some (some "\x1b[12;1;2;3m", .start, "TEXT")
#guard decoded "\x1b[12sTEXT" = some (some "\x1b[12s", .start, "TEXT")
#guard decoded "\x1b[sTEXT" = some (some "\x1b[s", .start, "TEXT")
#guard decoded "\x1b[12hTEXT" = some (some "\x1b[12h", .start, "TEXT")
#guard decoded "\x1b[hTEXT" = some (some "\x1b[h", .start, "TEXT")
#guard decoded "\x1b[0mTEXT" = some (some "\x1b[0m", .stop, "TEXT")
#guard decoded "\x1b[00mTEXT" = some (some "\x1b[00m", .stop, "TEXT")
#guard decoded "\x1b[mTEXT" = some (some "\x1b[m", .stop, "TEXT")
#guard decoded "\x1b[12uTEXT" = some (some "\x1b[12u", .stop, "TEXT")
#guard decoded "\x1b[uTEXT" = some (some "\x1b[u", .stop, "TEXT")
#guard decoded "\x1b[12lTEXT" = some (some "\x1b[12l", .stop, "TEXT")
#guard decoded "\x1b[lTEXT" = some (some "\x1b[l", .stop, "TEXT")
#guard decoded "\x1b[1;2KTEXT" = some (some "\x1b[1;2K", .other, "TEXT")
#guard decoded "\x1b#4TEXT" = some (none, .other, "\x1b#4TEXT")
#guard decoded "\x1b[" = some (some "\x1b[", .other, "")
#guard decoded "\x1b[;" = some (some "\x1b[;", .other, "")
#guard decoded "\x1b" = some (none, .other, "\x1b")
#guard decoded "\x1b\x1b\x1b" = some (none, .other, "\x1b\x1b\x1b")

/-! TestStripToken (terminal/ansi/ansi_test.go:374-388) -/

/-- All the pieces of a token. -/
def tokens (s : String) : Option (List (String × String × String × String)) :=
  let mem := runesOf s
  match Ansi.stripToken Env.ascii mem ⟨0, mem.length⟩ with
  | .error _ => none
  | .ok (ts, mem') => some (ts.map fun t =>
    (str ((t.text.map (·.elems mem')).getD []), str ((t.start.map (·.elems mem')).getD []),
      str ((t.stop.map (·.elems mem')).getD []), str (t.remainder.elems mem')))

#guard tokens "Lorem ipsum dolor \x1b[31;1;4msit amet," =
  some [("Lorem ipsum dolor ", "", "", "\x1b[31;1;4msit amet,"), ("sit amet,", "\x1b[31;1;4m", "", "")]

/-! ## terminal/runes -/

/-- The widths of the table of width_test.go:10-54: without options, East Asian, East Asian with wide emoji. -/
def widthTable : List (Rune × Int × Int × Int) := [
  (0x4E16, 2, 2, 2), (0x754C, 2, 2, 2), (0xFF7E, 1, 1, 1), (0xFF76, 1, 1, 1), (0xFF72, 1, 1, 1), (0x2606, 1,
   2, 2), (0x263A, 1, 1, 2), (0x263B, 1, 1, 2), (0x2665, 1, 2, 2), (0x2666, 1, 1, 2), (0x2663, 1, 2, 2),
   (0x2660, 1, 2, 2), (0x2642, 1, 2, 2), (0x2640, 1, 2, 2), (0x266A, 1, 2, 2), (0x266B, 1, 1, 2), (0x263C, 1,
   1, 2), (0x2195, 1, 2, 2), (0x203C, 1, 1, 2), (0x2194, 1, 2, 2), (0x0, 0, 0, 0), (0x1, 0, 0, 0), (0x300, 0,
   0, 0), (0x2028, 0, 0, 0), (0x2029, 0, 0, 0), (0x61, 1, 1, 1), (0x27E6, 1, 1, 1), (0x1F441, 1, 1, 2), (0xF6,
   1, 1, 1), (0xE4, 1, 1, 1), (0xE6, 1, 2, 2), (0xF8, 1, 2, 2), (0x212B, 1, 2, 2), (0xE5, 1, 1, 1), (0x2E3A,
   3, 3, 3), (0x2E3B, 4, 4, 4)]

/-- The width with some options, by the lookup table or not. -/
def widthIs (r : Rune) (opts : List WOption) (w : Int) : Bool :=
  match runeWidth r (optionsWithDefaults .init opts).1 with
  | .ok x => x == w
  | .error _ => false

#guard widthTable.length = 36
#guard widthTable.all fun x => widthIs x.1 [] x.2.1
#guard widthTable.all fun x => widthIs x.1 [.eastAsian true] x.2.2.1
#guard widthTable.all fun x => widthIs x.1 [.eastAsian true, .skipStrictEmojiNeutral true] x.2.2.2
#guard widthIs 0xFFFD [] 0 && widthIs 0x0FFFFFFF [] 0
#guard widthIs 0x212B [.eastAsian true, .ambiguousWidth 2] 2 && widthIs 0x212B [.eastAsian true, .ambiguousWidth 1] 1
#guard isAmbiguous 0xF8 = .ok true && isAmbiguous 0x212B = .ok true && isAmbiguous 0xE6 = .ok true
#guard isAmbiguous 0xE5 = .ok false

/-! TestFieldsFunc (terminal/runes/fields_test.go) -/

#guard strs (fieldsFunc (runesOf "a1|b22|c333||||e4444|||g") (fun r => r == 0x7C)) = some ["a1", "b22", "c333", "e4444", "g"]
#guard strs (fieldsFunc (runesOf "||a|b|c|||e||g|||") (fun r => r == 0x7C)) = some ["a", "b", "c", "e", "g"]

/-! ## wordbreak/tokenizer and wordbreak/punctuator -/

#guard strs (tokenizerBreakWord (runesOf "a1 b22\tc333\n\n\re4444  \x0c g")) = some ["a1", "b22", "c333", "e4444", "g"]
#guard strs (tokenizerBreakWord (runesOf " \na b\tc\n\n\re  \x0c g  ")) = some ["a", "b", "c", "e", "g"]
#guard strs (punctuatorBreakWord Env.ascii (runesOf "a/b/c|d.e_foo\\g&")) =
  some ["a", "/", "b", "/", "c", "|", "d", ".", "e", "_", "foo", "\\", "g", "&"]
#guard strs (punctuatorBreakWord Env.ascii (runesOf ",foo")) = some [",", "foo"]
#guard strs (punctuatorBreakWord Env.ascii (runesOf "foo,")) = some ["foo", ","]
#guard strs (punctuatorBreakWord Env.ascii (runesOf "foo,,")) = some ["foo", ",", ","]
#guard (runesOf "/_.&!|").all fun r => punctSplitFunc Env.ascii r && isPunctuation Env.ascii [r]
#guard ["aa", ",,", "", "-", "\u00AD"].all fun s => !isPunctuation Env.ascii (runesOf s)

/-! ## wordbreak/hyphenator -/

#guard [("XY", ["XY"]), ("X-Y", ["X", "-", "Y"]), ("X-Y-", ["X", "-", "Y", "-"]), ("-X-Y", ["-", "X", "-", "Y"]),
  ("X--Y", ["X", "-", "-", "Y"]), ("X--", ["X", "-", "-"]), ("--X", ["-", "-", "X"])].all
  fun (p : String × List String) => strs (splitWord (runesOf p.1)) == some p.2
#guard isHyphen (runesOf "-") && !isHyphen (runesOf "_") && !isHyphen (runesOf "foo") && !isHyphen []
#guard supportedPatterns = ["hyph-de-1996.tex", "hyph-en-gb.tex", "hyph-es.tex", "hyph-fr.tex", "ushyphmax.tex"]

/-- The dictionary of an embedded file. -/
def dictionary (name : String) : Option Dictionary :=
  match loadEmbedded Env.ascii name with
  | some (.ok d) => some d
  | _ => none

/-- A word with hyphens between its parts. -/
def hyphenated (d : Dictionary) (o : HOptions) (w : String) : Option String :=
  (strs (hyphenatorBreakWord Env.ascii d o (runesOf w))).map ("-".intercalate ·)

/-- The words of hyphenator_test.go that are broken with the default options. -/
def words : List (String × List String) := [
  ("ushyphmax.tex", ["an-cil-lary", "as-so-ciate", "reci-procity", "ma-jes-tu-ous", "daugh-ters", "sub-di-vi-sion",
    "dis-ci-plines", "phil-an-thropic", "ex-am-ple", "king", "daugh-ter", "Ex-am-ple",
    "Hon-ori-fi-ca-bil-itu-dini-tat-ibus",
    "Hon-ori-fi-ca-bil-itu-dini-tat-ibusHon-ori-fi-ca-bil-itu-dini-tat-ibus"]),
  ("hyph-fr.tex", ["connec-ti-vi-té"]),
  ("hyph-de-1996.tex", ["Aus-nah-me", "Uni-ver-si-täts-stadt"]),
  ("hyph-es.tex", ["trans-la-to-res"]),
  ("hyph-en-gb.tex", ["uni-ver-sit-ies"])]

#guard words.all fun p => match dictionary p.1 with
  | none => false
  | some d => p.2.all fun w => hyphenated d .default (str ((runesOf w).filter (· ≠ 0x2D))) == some w

#guard match dictionary "ushyphmax.tex" with
  | none => false
  | some d => ["associ-ates", "maj-estuous"].all (fun w => strs (hyphenatorBreakWord Env.ascii d .default (runesOf w)) == some [w]) &&
    hyphenated d ⟨6, 6, 2⟩ "Honorificabilitudinitatibus" == some "Honori-ficabil-itudini-tatibus" &&
    hyphenated d ⟨7, 6, 2⟩ "example" == some "example"

/-! TestString of hyphenator_test.go -/

#guard (dictionary "ushyphmax.tex").map (fun d => str d.identifier) = some "patterns: ushyphmax.tex"
#guard (dictionary "hyph-fr.tex").map (fun d => str d.identifier) = some "patterns: hyph-fr.tex"
#guard (dictionary "hyph-de-1996.tex").map (fun d => str d.identifier) =
  some "German Hyphenation Patterns (Reformed Orthography, 2006) `dehyphn-x' 2019-04-04 (WL)}"

/-! TestRuneTrie (wordbreak/hyphenator/internal/trie/trie_test.go) -/

/-- The keys of testTrie. -/
def keys : List (List Rune) :=
  ["fish", "/cat", "/dog", "/cats", "/caterpillar", "/cat/gideon", "/cat/giddy"].map runesOf

/-- Puts the same value at each key: the new trie and what each call returns. -/
def putAll (v : Nat → Nat) : List (List Rune) → Nat → Trie Nat → Trie Nat × List Bool
  | [], _, t => (t, [])
  | k :: ks, i, t =>
    let p := t.put k (some (v i))
    let q := putAll v ks (i + 1) p.1
    (q.1, p.2 :: q.2)

/-- Deletes each key: the new trie and what each call returns. -/
def delAll : List (List Rune) → Trie Nat → Trie Nat × List Bool
  | [], t => (t, [])
  | k :: ks, t =>
    let p := t.delete k
    let q := delAll ks p.1
    (q.1, p.2 :: q.2)

#guard
  let t1 := putAll (fun _ => 99) keys 0 .empty
  let t2 := putAll (fun i => i) keys 0 t1.1
  let t3 := delAll keys t2.1
  keys.all (fun k => (Trie.empty : Trie Nat).get k == none) && t1.2.all (· == true) && t2.2.all (· == false) &&
    (keys.zipIdx.all fun p => t2.1.get p.1 == some p.2) && t3.2.all (· == true) &&
    (keys.all fun k => (t3.1.delete (k.take 1)).2 == false) && keys.all fun k => t3.1.get k == none

/-! testNilBehavior: `nil` is put at the last key. -/

#guard
  let a := (Trie.empty : Trie Nat).put (runesOf "/cat") (some 1)
  let b := a.1.put (runesOf "/catamaran") (some 2)
  let c := b.1.put (runesOf "/caterpillar") none
  a.2 && b.2 && c.2 && ["/", "/c", "/ca", "/caterpillar", "/other"].all fun k => c.1.get (runesOf k) == none

/-! testTrieRoot -/

#guard
  let e := (Trie.empty : Trie Nat)
  let a := e.put [] (some 1)
  let b := a.1.put [] (some 2)
  let d := b.1.delete []
  e.isLeaf && e.get [] == none && a.2 && a.1.isLeaf && !b.2 && b.1.get [] == some 2 && d.2 && d.1.get [] == none

/-! ## terminal/runes/runesio -/

/-- The runes of `str` in slice_reader_test.go:13. -/
def longstring : List Rune := runesOf "longstring"

/-- A reader of it. -/
def longReader : SliceReader := newSliceReader ⟨0, longstring.length⟩

/-- All the runes read, with their sizes. -/
def readAll (mem : List Rune) : Nat → SliceReader → List (Rune × Int)
  | 0, _ => []
  | n + 1, r => match r.readRune mem with
    | .ok (some x, r') => x :: readAll mem n r'
    | _ => []

#guard readAll longstring 20 longReader = longstring.map fun r => (r, 1)

/-- The rune read next. -/
def nextRune (r : SliceReader) : Option Rune :=
  match r.readRune longstring with
  | .ok (some x, _) => some x.1
  | _ => none

#guard
  let a := longReader.seek 10 .start
  let b := a.2.seek 1 .start
  let c := (b.2.readRune longstring).toOption.map (·.2)
  let d := c.bind fun c => (c.readRune longstring).toOption.map (·.2)
  let e := d.map fun d => d.seek 1 .current
  let f := longReader.seek (-1) .end_
  a.1 == some 10 && nextRune a.2 == none && b.1 == some 1 && nextRune b.2 == some 0x6F &&
    c.bind nextRune == some 0x6E && e.bind (·.1) == some 4 && (e.bind fun e => nextRune e.2) == some 0x73 &&
    f.1 == some 9 && nextRune f.2 == some 0x67
#guard (longReader.seek (-1) .start).1 = none && (longReader.seek 11 .start).1 = none && (longReader.seek 11 .current).1 = none

/-- The runes of `str` in slice_reader_test.go:122. -/
def unix : List Rune := runesOf "unixöperatingsystem"

/-- A reader of it. -/
def unixReader : SliceReader := newSliceReader ⟨0, unix.length⟩

/-- The strings of some slices. -/
def slicesStr (v : Res (List View)) : Option (List String) := strs (v.map (·.map (·.elems unix)))

#guard slicesStr (unixReader.sliceFromByteOffsets unix [1, 4]) = some ["nix"]
#guard slicesStr (unixReader.sliceFromByteOffsets unix [4, 8, 10, 12]) = some ["öpe", "ti"]
#guard slicesStr (unixReader.slices unix [1, 4]) = some ["nix"]
#guard slicesStr (unixReader.slices unix [4, 8, 10, 12]) = some ["öper", "in"]
#guard slicesStr ((unixReader.slice unix 1 4).map ([·])) = some ["nix"]
#guard slicesStr ((unixReader.slice unix 4 8).map ([·])) = some ["öper"]
#guard slicesStr (unixReader.sliceFromByteOffsets unix [4, 10, 12]) = none
#guard slicesStr (unixReader.slices unix [4, 8, 10]) = none
#guard slicesStr ((SliceReader.rest unix ⟨5, unixReader.runes⟩).map ([·])) = some ["peratingsystem"]

/-- A writer that keeps what is written (bytes.Buffer). -/
def buffer : IOWriter (List Nat) Unit := fun st p => (((p.length : Int), none), st ++ p)

#guard
  let a := writeRune buffer [] 0x61
  let b := writeRunes buffer a.2 (runesOf "abc")
  let c := writeRunes buffer b.2 (runesOf "é🏈")
  a == ((1, none), [0x61]) && b == ((3, none), [0x61, 0x61, 0x62, 0x63]) && c.1 == (6, none) &&
    c.2 == "aabcé🏈".toUTF8.toList.map (·.toNat)

/-! ## attributes/state_test.go -/

/-- The states of the two tests, with nested levels and with a start and a stop in one attribute. -/
def states : List AState :=
  let r := runesOf
  let a := [Attribute.new (r "first") (r "[start1") [], .new (r "second") [] [], .new (r "third") (r "[start2") [],
    .new (r "fourth") [] (r "[stop2"), .new (r "fifth") [] (r "[stop1"), .new (r "sixth") [] []]
  [a, a.set 1 (.new (r "second") (r "[start3") (r "[stop3"))].map fun l => l.foldl (fun s x => s.push (some x)) []

/-- How many times Next returns true. -/
def count (s : AState) : Nat → AIter → Nat
  | 0, _ => 0
  | n + 1, i => match i.next s with
    | (true, i') => count s n i' + 1
    | (false, _) => 0

#guard states.all fun s => s.length == 6 && count s 10 s.iterator == 6
#guard (states.head?.map fun s => (s.take 2).map fun a => (str a.text, a.level)) = some [("first", 1), ("second", 1)]

/-! ## linebreak/linebreaker_test.go

Computed with float64, with the widths of the runes of these texts, which is 1. The tests only ask that no error be
returned. The map of candidates is walked in the order of the classes: the lines depend on it (C58). -/

/-- linebreaker_test.go:17-24 -/
def grimm : String := "In olden times when wishing still helped one, there lived a king whose daughters were all beautiful," ++
  " but the youngest was so beautiful that the sun itself, which has seen so much, was astonished whene" ++
  "ver it shone in her face. Close by the king's castle lay a great dark forest, and under an old lime-" ++
  "tree in the forest was a well, and when the day was very warm, the king's child went out into the fo" ++
  "rest and sat down by the side of the cool fountain, and when she was bored she took a golden ball, a" ++
  "nd threw it up on high and caught it, and this ball was her favorite plaything."

/-- linebreaker_test.go:36-40 -/
def lorem : String := "Lorem ipsum dolor sit amet, consectetur adipiscing elit, sed do eiusmod tempor incididunt ut labore " ++
  "et dolore magna aliqua. Ut enim ad minim veniam, quis nostrud exercitation ullamco laboris nisi ut a" ++
  "liquip ex ea commodo consequat. Duis aute irure dolor in reprehenderit in voluptate velit esse cillu" ++
  "m dolore eu fugiat nulla pariatur. Excepteur sint occaecat cupidatat non proident, sunt in culpa qui" ++
  " officia deserunt mollit anim id est laborum."

/-- linebreaker_test.go:137-145 -/
def styled : String := "Lorem ipsum dolor \x1b[31;1;4msit amet, consectetur adipiscing elit, sed do eiusmod tempor incididunt u" ++
  "t labore et dolore\x1b[0m magna aliqua. Ut enim ad minim veniam, quis nostrud exercitation ullamco labo" ++
  "ris nisi ut aliquip ex ea commodo consequat. Duis aute irure dolor in reprehenderit \x1b[92min voluptat" ++
  "e velit esse cillum dolore eu fugiat nulla pariatur. Excepteur sint occaecat cupidatat non proident," ++
  "\x1b[0m sunt in culpa qui officia deserunt mollit anim id est laborum."

/-- The lines of a paragraph; none for an error or a panic. -/
def paragraph (rt : LB.Runtime) (l : LB.LineBreaker F64) (s : String) (w : Int) : Option (List String) :=
  match LB.leftAlignUniform rt Env.ascii l ((s.splitOn " ").map runesOf) (Arith.ofInt w) with
  | .ok (some ls, _) => some (ls.map str)
  | _ => none

/-- All the paragraphs of TestLineBreaker are set, with the lines written in the comment of
linebreaker_test.go:113-117 for the one of width 15. (The ones in the comment of linebreaker_test.go:89-93 break a
word where the dictionary has no break.) -/
def lineTests (d : Dictionary) (rt : LB.Runtime) : Bool :=
  let hyph : LB.Opt F64 := .hyphenator (some (hyphenatorBreakWord Env.ascii d .default))
  let new (opts : List (LB.Opt F64)) : LB.LineBreaker F64 := LB.new Env.ascii d (Props.unit64 :: opts)
  let plain := new [.wordBreak false]
  let hyphens := new [.renderHyphens true, hyph]
  let urls := new [.renderHyphens true, hyph, .renderHyphens false]
  (paragraph rt plain "Lorem ipsum dolor sit amet, consectetur adipiscing" 50).isSome &&
  (paragraph rt plain lorem 50).isSome && (paragraph rt hyphens lorem 40).isSome &&
  (paragraph rt plain lorem 51).isSome && (paragraph rt hyphens lorem 41).isSome &&
  (paragraph rt plain grimm 30).isSome && (paragraph rt hyphens grimm 20).isSome &&
  (paragraph rt hyphens grimm 8).isSome && (paragraph rt hyphens grimm 12).isSome &&
  (paragraph rt hyphens "Honorificabilitudinitatibus is super long" 20).isSome &&
  paragraph rt hyphens "Honorificabilitudinitatibus is super long" 15 ==
    some ["Honorificabil-", "itudinitatibus", "is super long"] &&
  (paragraph rt urls "https://www.unicode.org/Public/15.0.0/ucd/emoji/emoji-data.txt" 15).isSome &&
  (paragraph rt plain styled 50).isSome && (paragraph rt hyphens styled 40).isSome &&
  (paragraph rt plain styled 51).isSome && (paragraph rt hyphens styled 41).isSome

#guard match dictionary "ushyphmax.tex" with
  | none => false
  | some d => lineTests d Props.forward

end Verif.Checks
