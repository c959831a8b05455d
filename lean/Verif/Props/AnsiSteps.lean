import Verif.Props.Ansi
import Verif.Proofs.AnsiLinear
import Verif.Proofs.AnsiNoLess

/-! # C105: the work of StripToken -/

namespace Verif.Props
open Verif.Go Verif.Model Verif.Model.Ansi Verif.Spec.Ansi Verif.Proofs.Ansi

/-- **C105.** The functions that count what they read and copy have the same results. -/
theorem C105_counted (env : Env) (mem : List Rune) (v : View) :
    (stripTokenC env mem v).res = stripToken env mem v ∧
    (stripANSIFromRunesC env mem v).res = stripANSIFromRunes env mem v :=
  ⟨stripTokenC_res env mem v, stripC_res env mem v⟩

/-- **C105.** StripToken reads and copies at most `3 n + 3` runes, for every token of `n` runes: panic or not, and
however many results there are. -/
theorem C105_linear (env : Env) (hd : AsciiDigits env) (mem : List Rune) (v : View) (h : IsSlice mem v) :
    (stripTokenC env mem v).steps ≤ 3 * v.len + 3 := stripTokenC_steps env hd mem v h.1 h.2

/-- **C105.** So does StripANSIFromRunes. -/
theorem C105_single (env : Env) (hd : AsciiDigits env) (mem : List Rune) (v : View) (h : IsSlice mem v) :
    (stripANSIFromRunesC env mem v).steps ≤ 3 * v.len + 3 := by
  have h1 := stripC_steps env hd mem v h.1 h.2
  have h2 := round_all hd (v.len + 2) (v.elems mem)
  rw [View.elems_length h.1] at h2
  omega

/-- **C105.** StripToken, if it returns, reads and copies at least five sixths of the number of runes. -/
theorem C105_no_less (env : Env) (hd : AsciiDigits env) (mem : List Rune) (v : View) (h : IsSlice mem v)
    (y : List StrippedToken × List Rune) (hy : stripToken env mem v = .ok y) :
    5 * v.len ≤ 6 * (stripTokenC env mem v).steps := stripTokenC_ge env hd mem v h.1 h.2 y hy

/-! ## Cases -/

/-- After three digits one rune is taken into the sequence without being read: `ESC [ 1 2 3 x`, over and over, is the
least case of `C105_no_less`. -/
example : (stripTokenC Env.ascii (List.replicate 3 [0x1B, 0x5B, 0x31, 0x32, 0x33, 0x78]).flatten ⟨0, 18⟩).steps = 15 ∧
    (stripToken Env.ascii (List.replicate 3 [0x1B, 0x5B, 0x31, 0x32, 0x33, 0x78]).flatten ⟨0, 18⟩).isOk = true ∧
    IsSlice (List.replicate 3 [0x1B, 0x5B, 0x31, 0x32, 0x33, 0x78]).flatten ⟨0, 18⟩ := by
  refine ⟨by decide +kernel, by decide +kernel, ⟨by unfold View.Valid; decide, by decide⟩⟩

/-- `a ESC [ s`, over and over. -/
def restyled (k : Nat) : List Rune := (List.replicate k [0x61, 0x1B, 0x5B, 0x73]).flatten

/-- A sequence is read twice when it comes to be the start of the next result: 23 reads for 8 runes. -/
example : (stripTokenC Env.ascii (restyled 2) ⟨0, 8⟩).steps = 23 ∧ IsSlice (restyled 2) ⟨0, 8⟩ ∧
    (stripTokenC Env.ascii (restyled 2) ⟨0, 8⟩).res.toOption.map (·.1.length) = some 3 := by
  refine ⟨by decide +kernel, ⟨by unfold View.Valid; decide, by decide⟩, by decide +kernel⟩

/-- The bound is reached by the empty token: three attempts to read. -/
example : (stripTokenC Env.ascii [] ⟨0, 0⟩).steps = 3 := by decide +kernel

/-- With runes copied: `a ESC [ K ESC [ K`. -/
example : (stripTokenC Env.ascii [0x61, 0x1B, 0x5B, 0x4B, 0x1B, 0x5B, 0x4B] ⟨0, 7⟩).steps = 17 := by decide +kernel

/-- Before a panic: `a ESC [ 1 2 3`. -/
example : (stripTokenC Env.ascii [0x61, 0x1B, 0x5B, 0x31, 0x32, 0x33] ⟨0, 6⟩).steps = 9 ∧
    (stripTokenC Env.ascii [0x61, 0x1B, 0x5B, 0x31, 0x32, 0x33] ⟨0, 6⟩).res = .error .slice := by
  constructor <;> decide +kernel

end Verif.Props
