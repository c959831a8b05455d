import Verif.Model.Fields

/-! # Lemmas on FieldsFunc -/

namespace Verif.Proofs
open Verif.Go Verif.Model

/-- Structural reference: `cur` is the run being accumulated. -/
def fieldsRef (f : Rune → Bool) : List Rune → List Rune → List (List Rune)
  | cur, [] => if cur = [] then [] else [cur]
  | cur, r :: rest =>
    if f r then
      if cur = [] then fieldsRef f [] rest else cur :: fieldsRef f [] rest
    else fieldsRef f (cur ++ [r]) rest

/-- Finishing step of FieldsFunc. -/
def fieldsEnd (inp : List Rune) (p : List (List Rune) × Int) : Res (List (List Rune)) :=
  if p.2 ≥ 0 then do
    let last ← slice inp p.2 inp.length
    return p.1 ++ [last]
  else
    return p.1

theorem fieldsFunc_def (inp : List Rune) (f : Rune → Bool) :
    fieldsFunc inp f = fieldsLoop f inp inp 0 (-1) [] >>= fieldsEnd inp := by
  rfl

theorem fieldsLoop_ref (f : Rune → Bool) (inp : List Rune) :
    ∀ (rest pre cur : List Rune) (start : Int) (tokens : List (List Rune)),
      inp = pre ++ cur ++ rest →
      (cur = [] → start < 0) → (cur ≠ [] → start = pre.length) →
      (fieldsLoop f inp rest (pre.length + cur.length) start tokens >>= fieldsEnd inp)
        = .ok (tokens ++ fieldsRef f cur rest) := by
  intro rest
  induction rest with
  | nil =>
    intro pre cur start tokens hin h0 h1
    simp only [fieldsLoop, ok_bind, fieldsEnd, fieldsRef]
    by_cases hc : cur = []
    · have := h0 hc
      simp [hc, show ¬ (start ≥ 0) by omega]
    · have := h1 hc
      subst this
      rw [if_pos (by omega), slice_ok (by simp [hin]) (Nat.le_refl _)]
      simp [hc, hin]
  | cons r rest ih =>
    intro pre cur start tokens hin h0 h1
    simp only [fieldsLoop, fieldsRef]
    by_cases hr : f r = true
    · simp only [hr, if_true]
      by_cases hc : cur = []
      · have hs := h0 hc
        rw [if_neg (by omega), if_pos hc]
        have := ih (pre ++ [r]) [] start tokens (by simp [hin, hc]) (fun _ => hs) (by simp)
        simpa [hc] using this
      · have hs := h1 hc
        subst hs
        rw [if_pos (by omega), if_neg hc]
        rw [show ((pre.length + cur.length : Nat) : Int) = ((pre.length + cur.length : Nat) : Int) from rfl]
        rw [slice_ok (by omega) (by simp [hin])]
        simp only [ok_bind]
        have := ih (pre ++ cur ++ [r]) [] (compl pre.length)
          (tokens ++ [(inp.drop pre.length).take (pre.length + cur.length - pre.length)])
          (by simp [hin]) (fun _ => compl_neg (by omega)) (by simp)
        simp only [List.length_append, List.length_singleton, List.length_nil, Nat.add_zero] at this
        rw [this]
        simp [hin]
    · simp only [hr, if_false, Bool.false_eq_true]
      by_cases hc : cur = []
      · have hs := h0 hc
        rw [if_pos hs]
        have := ih pre [r] pre.length tokens (by simp [hin, hc]) (by simp) (by simp)
        simpa [hc] using this
      · have hs := h1 hc
        rw [if_neg (by omega)]
        have := ih pre (cur ++ [r]) start tokens (by simp [hin]) (by simp) (fun _ => hs)
        simpa [Nat.add_assoc] using this

/-- FieldsFunc never panics and computes `fieldsRef`. -/
theorem fieldsFunc_ref (inp : List Rune) (f : Rune → Bool) :
    fieldsFunc inp f = .ok (fieldsRef f [] inp) := by
  rw [fieldsFunc_def]
  have := fieldsLoop_ref f inp inp [] [] (-1) [] (by simp) (by simp) (by simp)
  simpa using this

theorem fieldsRef_flatten (f : Rune → Bool) : ∀ (rest cur : List Rune), (∀ r ∈ cur, f r = false) →
    (fieldsRef f cur rest).flatten = cur ++ rest.filter (fun r => !f r) := by
  intro rest
  induction rest with
  | nil => intro cur _; by_cases h : cur = [] <;> simp [fieldsRef, h]
  | cons r rest ih =>
    intro cur hcur
    by_cases hr : f r = true
    · by_cases h : cur = []
      · simp [fieldsRef, h, hr, ih [] (by simp)]
      · simp [fieldsRef, h, hr, ih [] (by simp)]
    · have hr' : f r = false := by simpa using hr
      simp only [fieldsRef, hr', Bool.false_eq_true, if_false]
      rw [ih]
      · simp [hr']
      · intro x hx
        rcases List.mem_append.mp hx with h | h
        · exact hcur x h
        · simp at h; subst h; exact hr'

theorem fieldsRef_parts (f : Rune → Bool) : ∀ (rest cur : List Rune), (∀ r ∈ cur, f r = false) →
    ∀ p ∈ fieldsRef f cur rest, p ≠ [] ∧ ∀ r ∈ p, f r = false := by
  intro rest
  induction rest with
  | nil =>
    intro cur h p hp
    by_cases hc : cur = []
    · simp [fieldsRef, hc] at hp
    · simp [fieldsRef, hc] at hp; subst hp; exact ⟨hc, h⟩
  | cons r rest ih =>
    intro cur h p hp
    by_cases hr : f r = true
    · by_cases hc : cur = []
      · simp only [fieldsRef, hr, hc, if_true] at hp
        exact ih [] (by simp) p hp
      · simp only [fieldsRef, hr, hc, if_true, if_false, List.mem_cons] at hp
        rcases hp with hp | hp
        · subst hp; exact ⟨hc, h⟩
        · exact ih [] (by simp) p hp
    · have hr' : f r = false := by simpa using hr
      simp only [fieldsRef, hr', Bool.false_eq_true, if_false] at hp
      refine ih _ ?_ p hp
      intro x hx
      rcases List.mem_append.mp hx with h' | h'
      · exact h x h'
      · simp at h'; subst h'; exact hr'

theorem fieldsRef_word (f : Rune → Bool) (w rest cur : List Rune) (hw : ∀ r ∈ w, f r = false) :
    fieldsRef f cur (w ++ rest) = fieldsRef f (cur ++ w) rest := by
  induction w generalizing cur with
  | nil => simp
  | cons r w ih =>
    have hr : f r = false := hw r (by simp)
    simp only [List.cons_append, fieldsRef, hr, Bool.false_eq_true, if_false]
    rw [ih _ (fun x hx => hw x (by simp [hx]))]
    simp

theorem fieldsRef_join (f : Rune → Bool) (s : Rune) (hs : f s = true) :
    ∀ ws : List (List Rune), (∀ w ∈ ws, w ≠ [] ∧ ∀ r ∈ w, f r = false) →
      fieldsRef f [] (List.intercalate [s] ws) = ws := by
  intro ws
  induction ws with
  | nil => intro _; simp [List.intercalate, fieldsRef]
  | cons w ws ih =>
    intro h
    have hw := h w (by simp)
    have ih' := ih (fun x hx => h x (by simp [hx]))
    cases ws with
    | nil =>
      simp only [List.intercalate, List.intersperse, List.flatten_cons, List.flatten_nil]
      rw [fieldsRef_word f w [] [] hw.2]
      simp [fieldsRef, hw.1]
    | cons w' ws' =>
      have : List.intercalate [s] (w :: w' :: ws') = w ++ (s :: List.intercalate [s] (w' :: ws')) := by
        simp [List.intercalate, List.intersperse]
      rw [this, fieldsRef_word f w _ [] hw.2]
      simp only [List.nil_append, fieldsRef, hs, if_true, hw.1, if_false]
      rw [ih']

end Verif.Proofs
