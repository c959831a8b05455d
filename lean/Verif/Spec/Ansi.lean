import Verif.Go.Unicode

/-! # Specification of control sequences (ECMA-48), independent of the decoder -/

namespace Verif.Spec.Ansi
open Verif.Go

/-- The introducer `ESC [`. -/
def introducer : List Rune := [0x1B, 0x5B]

/-- `;` or `:`. -/
def IsSep (r : Rune) : Prop := r = 0x3B ∨ r = 0x3A

instance (r : Rune) : Decidable (IsSep r) := inferInstanceAs (Decidable (r = 0x3B ∨ r = 0x3A))

/-- A control sequence: a first parameter, further parameters with the separators before them, and the
key code. Parameters are lists of digits, possibly empty. -/
structure CtlSeq where
  first : List Rune
  more : List (Rune × List Rune)
  key : Rune

/-- The runes of a sequence. -/
def CtlSeq.runes (s : CtlSeq) : List Rune :=
  introducer ++ s.first ++ s.more.flatMap (fun p => p.1 :: p.2) ++ [s.key]

/-- Parameters are made of digits, separators are separators, the key code is neither. -/
structure CtlSeq.WellFormed (env : Env) (s : CtlSeq) : Prop where
  first : ∀ r ∈ s.first, env.isDigit r = true
  more : ∀ p ∈ s.more, IsSep p.1 ∧ ∀ r ∈ p.2, env.isDigit r = true
  key : env.isDigit s.key = false ∧ ¬ IsSep s.key

/-- All parameters have at most two digits. -/
def CtlSeq.Short (s : CtlSeq) : Prop := s.first.length ≤ 2 ∧ ∀ p ∈ s.more, p.2.length ≤ 2

/-- The first parameter is absent or zero. -/
def CtlSeq.ZeroArg (s : CtlSeq) : Prop := ∀ r ∈ s.first, r = 0x30

/-- It starts a style: `s`, `h`, or `m` with a first parameter other than zero. -/
def CtlSeq.Starts (s : CtlSeq) : Prop := s.key = 0x73 ∨ s.key = 0x68 ∨ (s.key = 0x6D ∧ ¬ s.ZeroArg)

/-- It ends a style: `u`, `l`, or `m` with the first parameter zero or absent. -/
def CtlSeq.Stops (s : CtlSeq) : Prop := s.key = 0x75 ∨ s.key = 0x6C ∨ (s.key = 0x6D ∧ s.ZeroArg)

/-- What is known of `unicode.IsDigit`: its restriction to ASCII. -/
def AsciiDigits (env : Env) : Prop :=
  ∀ r : Rune, 0 ≤ r → r < 128 → (env.isDigit r = true ↔ 0x30 ≤ r ∧ r ≤ 0x39)

/-- The text ends within a parameter of three digits: `[`, `;` or `:` and three digits. -/
def EndsInThreeDigits (env : Env) (l : List Rune) : Prop :=
  ∃ pre x d1 d2 d3, l = pre ++ [x, d1, d2, d3] ∧ (x = 0x5B ∨ IsSep x) ∧
    env.isDigit d1 = true ∧ env.isDigit d2 = true ∧ env.isDigit d3 = true

/-- The text ends within a control sequence, in a parameter of three digits. -/
def CutShort (env : Env) (l : List Rune) : Prop :=
  ∃ pre body, l = pre ++ introducer ++ body ∧ (∀ r ∈ body, env.isDigit r = true ∨ IsSep r) ∧
    EndsInThreeDigits env (0x5B :: body)

/-- The beginning of a control sequence, up to where a parameter starts; all parameters before it have at
most two digits. -/
inductive Opened (env : Env) : List Rune → Prop where
  | first : Opened env introducer
  | next {o ds x} : Opened env o → (∀ r ∈ ds, env.isDigit r = true) → ds.length ≤ 2 → IsSep x →
      Opened env (o ++ ds ++ [x])

/-- The beginning of a control sequence, up to the end of its first parameter of three digits. -/
def LongHead (env : Env) (h : List Rune) : Prop :=
  ∃ o d1 d2 d3, Opened env o ∧ env.isDigit d1 = true ∧ env.isDigit d2 = true ∧ env.isDigit d3 = true ∧
    h = o ++ [d1, d2, d3]

/-- The second text is left when the first one is read from the left to the right: rune by rune, where ESC
takes the next rune with it, and control sequences as a whole. A parameter of three digits ends a
sequence, with any rune after it. -/
inductive ReadTo (env : Env) : List Rune → List Rune → Prop where
  | here {l} : ReadTo env l l
  | rune {r l l'} : r ≠ 0x1B → ReadTo env l l' → ReadTo env (r :: l) l'
  | pair {r l l'} : r ≠ 0x5B → ReadTo env l l' → ReadTo env (0x1B :: r :: l) l'
  | seq {o ds key l l'} : Opened env o → (∀ r ∈ ds, env.isDigit r = true) → ds.length ≤ 2 →
      env.isDigit key = false → ¬ IsSep key → ReadTo env l l' → ReadTo env (o ++ ds ++ key :: l) l'
  | long {h r l l'} : LongHead env h → ReadTo env l l' → ReadTo env (h ++ r :: l) l'

/-- Read from the left to the right, the text ends with the first parameter of three digits of a control
sequence. -/
def EndsLong (env : Env) (l : List Rune) : Prop := ∃ h, LongHead env h ∧ ReadTo env l h

/-- Made of runes other than ESC, and of control sequences with short parameters which do not end with
ESC and are of a kind in `K`. -/
inductive MadeOf (env : Env) (K : CtlSeq → Prop) : List Rune → Prop where
  | nil : MadeOf env K []
  | rune {r l} : r ≠ 0x1B → MadeOf env K l → MadeOf env K (r :: l)
  | seq {s l} : s.WellFormed env → s.Short → s.key ≠ 0x1B → K s → MadeOf env K l → MadeOf env K (s.runes ++ l)

/-- A styled word: unstyled text before it, start sequence, text, stop sequence. -/
structure Word where
  gap : List Rune
  start : CtlSeq
  text : List Rune
  stop : CtlSeq

/-- The runes of a word. -/
def Word.runes (w : Word) : List Rune := w.gap ++ w.start.runes ++ w.text ++ w.stop.runes

/-- The sequences are well-formed, with short parameters, of the right kinds, and ESC is nowhere else. -/
structure Word.Good (env : Env) (w : Word) : Prop where
  gap : (0x1B : Rune) ∉ w.gap
  text : (0x1B : Rune) ∉ w.text
  start : w.start.WellFormed env ∧ w.start.Short ∧ w.start.Starts
  stop : w.stop.WellFormed env ∧ w.stop.Short ∧ w.stop.Stops

/-- Unstyled text, as start sequence, text and stop sequence; none if it is empty. -/
def plainPart (l : List Rune) : List (List Rune × List Rune × List Rune) :=
  if l = [] then [] else [([], l, [])]

/-- The parts of a word, as start sequence, text and stop sequence. -/
def Word.parts (w : Word) : List (List Rune × List Rune × List Rune) :=
  plainPart w.gap ++ [(w.start.runes, w.text, w.stop.runes)]

/-- A chunk of a token: a text with a start sequence before it or not, a stop sequence after it or not. -/
structure Chunk where
  start : Option CtlSeq
  text : List Rune
  stop : Option CtlSeq

/-- The runes of a sequence, if there is one. -/
def seqRunes : Option CtlSeq → List Rune
  | none => []
  | some s => s.runes

/-- The runes of a chunk. -/
def Chunk.runes (c : Chunk) : List Rune := seqRunes c.start ++ c.text ++ seqRunes c.stop

/-- The sequences are well-formed, with short parameters, of the right kinds, ESC is nowhere else and there
is some text. -/
structure Chunk.Good (env : Env) (c : Chunk) : Prop where
  text : (0x1B : Rune) ∉ c.text
  full : c.text ≠ []
  start : ∀ s, c.start = some s → s.WellFormed env ∧ s.Short ∧ s.Starts
  stop : ∀ s, c.stop = some s → s.WellFormed env ∧ s.Short ∧ s.Stops

/-- There is a sequence between any two consecutive texts. -/
def Apart : List Chunk → Prop
  | a :: b :: rest => (a.stop ≠ none ∨ b.start ≠ none) ∧ Apart (b :: rest)
  | _ => True

end Verif.Spec.Ansi
