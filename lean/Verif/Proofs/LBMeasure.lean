import Verif.Proofs.LBDisplay
import Verif.Proofs.AnsiToken
import Verif.Proofs.AnsiClean

/-! # Lines of styled text given to StripToken -/

namespace Verif.Proofs.LB
open Verif.Go Verif.Model Verif.Model.LB Verif.Spec Verif.Spec.Ansi Verif.Spec.LB Verif.Proofs.Ansi

/-- It starts or ends a style. -/
abbrev StyleSeq : CtlSeq → Prop := fun s => s.Starts ∨ s.Stops

theorem piece_start {env : Env} {p : Piece} (h : GoodPiece env p) : MadeOf env StyleSeq p.start := by
  rcases h.start with e | ⟨s, a, b, c, e⟩
  · rw [e]; exact .nil
  · rw [e]; simpa using MadeOf.seq a b (word_key (Or.inl c)) (K := StyleSeq) (Or.inl c) .nil

theorem piece_stop {env : Env} {p : Piece} (h : GoodPiece env p) : MadeOf env StyleSeq p.stop := by
  rcases h.stop with e | ⟨s, a, b, c, e⟩
  · rw [e]; exact .nil
  · rw [e]; simpa using MadeOf.seq a b (word_key (Or.inr c)) (K := StyleSeq) (Or.inr c) .nil

theorem madeOf_flatten {env : Env} {K : CtlSeq → Prop} (a : List (List Rune)) (h : ∀ x ∈ a, MadeOf env K x) :
    MadeOf env K a.flatten := by
  induction a with
  | nil => exact .nil
  | cons x a ih =>
    rw [List.flatten_cons]
    exact madeOf_append (h x (by simp)) (ih (fun y hy => h y (by simp [hy])))

theorem dress_madeOf {env : Env} {g : List Rune} (hg : (0x1B : Rune) ∉ g) (body : List Sym) (ps : List Piece)
    (hp : ∀ p ∈ ps, GoodPiece env p) : MadeOf env StyleSeq (dress g body ps) := by
  induction body generalizing ps with
  | nil => exact .nil
  | cons s body ih =>
    cases s with
    | part t =>
      cases ps with
      | nil => exact ih [] hp
      | cons p ps =>
        have h := hp p (by simp)
        exact madeOf_append (madeOf_append (madeOf_append (piece_start h) (madeOf_plain h.text)) (piece_stop h))
          (ih ps (fun q hq => hp q (by simp [hq])))
    | gap => exact madeOf_append (madeOf_plain hg) (ih ps hp)
    | soft => exact ih ps hp
    | mark => exact ih ps hp
    | hard => exact ih ps hp

/-- Lines are made of runes and of sequences that start or end a style. -/
theorem wrapped_madeOf {env : Env} {g : List Rune} (hg : (0x1B : Rune) ∉ g) {H P : List Piece}
    (hP : ∀ p ∈ H ++ P, GoodPiece env p) {k : Nat} {ls : List Line} {out : List (List Rune)}
    (h : Wrapped g ((H ++ P).map Piece.start) ((H ++ P).map Piece.stop) P k ls out)
    (he : ∀ x ∈ ls, (0x1B : Rune) ∉ x.ending) : ∀ line ∈ out, MadeOf env StyleSeq line := by
  induction h with
  | nil k => intro line hl; cases hl
  | @cons k line rest out a b ha hb hr ih =>
    intro x hx
    rcases List.mem_cons.mp hx with rfl | hx
    · refine madeOf_append (madeOf_append (madeOf_append (madeOf_flatten a ?_)
        (dress_madeOf hg line.body _ (fun p hp => hP p (List.mem_append.mpr (Or.inr (List.mem_of_mem_drop hp))))))
        (madeOf_plain (he line (by simp)))) (madeOf_flatten b ?_)
      · intro x hx
        obtain ⟨p, hp, rfl⟩ := List.mem_map.mp (ha x hx)
        exact piece_start (hP p hp)
      · intro x hx
        obtain ⟨p, hp, rfl⟩ := List.mem_map.mp (hb x hx)
        exact piece_stop (hP p hp)
    · exact ih (fun y hy => he y (by simp [hy])) x hx

theorem madeOf_none {env : Env} {K : CtlSeq → Prop} (hk : ∀ s, ¬ K s) {l : List Rune} (h : MadeOf env K l) :
    (0x1B : Rune) ∉ l := by
  induction h with
  | nil => simp
  | rune h _ ih =>
    intro hm
    rcases List.mem_cons.mp hm with e | e
    · exact h e.symm
    · exact ih e
  | seq _ _ _ h _ _ => exact absurd h (hk _)

/-- **The texts found by StripToken are what is visible.** -/
theorem strip_visible {env : Env} (hd : AsciiDigits env) {mem : List Rune} {v : View} (hv : v.Valid mem)
    (hn : (v.len : Int) < 2 ^ 63) (hm : MadeOf env StyleSeq (v.elems mem)) :
    ∃ toks, Model.Ansi.stripToken env mem v = .ok (toks, mem) ∧
      Visible env (v.elems mem) (toks.flatMap (fun t => textElems mem t.text)) ∧
      ∀ t ∈ toks, (0x1B : Rune) ∉ textElems mem t.text := by
  rcases stripToken_spec env hd mem v hv hn with ⟨_, _, h1⟩ | ⟨toks, h1, h2⟩
  · exact absurd (overruns_cutShort hd h1) (cutShort_madeOf hd hm)
  · have ht : ∀ t ∈ toks, (0x1B : Rune) ∉ textElems mem t.text := fun t ht =>
      madeOf_none (fun s h => by rcases h.1 with e | e; exacts [h.2.1 e, h.2.2 e]) (run_madeOf_kind hd h1 hv hm t ht)
    refine ⟨toks, h2, ?_, ht⟩
    rw [← run_lossless hd h1 hv (cutShort_madeOf hd hm)]
    have hs := run_sequences hd h1 hv
    clear h1 h2
    induction toks with
    | nil => exact .nil
    | cons t toks ih =>
      rw [List.flatMap_cons, List.flatMap_cons]
      refine Visible.append ?_ (ih (fun u hu => ht u (by simp [hu])) (fun u hu => hs u (by simp [hu])))
      obtain ⟨g1, g2⟩ := hs t (by simp)
      have a : Visible env (optElems mem t.start) [] := by
        rcases g1 with e | ⟨s, w, _, _, e⟩
        · rw [e]; exact .nil
        · rw [e]; simpa using Visible.seq (l := []) w .nil
      have b : Visible env (optElems mem t.stop) [] := by
        rcases g2 with e | ⟨s, w, _, _, e⟩
        · rw [e]; exact .nil
        · rw [e]; simpa using Visible.seq (l := []) w .nil
      have := (a.append (visible_text _ (ht t (by simp)))).append b
      simpa [tokRunes] using this

end Verif.Proofs.LB
