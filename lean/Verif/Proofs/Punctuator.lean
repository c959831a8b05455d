import Verif.Model.Punctuator
import Verif.Spec.Split

/-! # Lemmas on breakAtFunc -/

namespace Verif.Proofs
open Verif.Go Verif.Model Verif.Spec

def breakAtRef (f : Rune → Bool) : List Rune → List Rune → List (List Rune)
  | cur, [] => if cur = [] then [] else [cur]
  | cur, r :: rest =>
    if f r then
      (if cur = [] then [] else [cur]) ++ [[r]] ++ breakAtRef f [] rest
    else breakAtRef f (cur ++ [r]) rest

def breakAtEnd (word : List Rune) (p : List (List Rune) × Nat) : Res (List (List Rune)) :=
  if p.2 < word.length then do
    let last ← slice word p.2 word.length
    return p.1 ++ [last]
  else
    return p.1

theorem breakAtFunc_def (word : List Rune) (f : Rune → Bool) :
    breakAtFunc word f = breakAtLoop f word word 0 0 [] >>= breakAtEnd word := by
  rfl

theorem breakAtLoop_ref (f : Rune → Bool) (word : List Rune) :
    ∀ (rest pre cur : List Rune) (result : List (List Rune)),
      word = pre ++ cur ++ rest →
      (breakAtLoop f word rest (pre.length + cur.length) pre.length result >>= breakAtEnd word)
        = .ok (result ++ breakAtRef f cur rest) := by
  intro rest
  induction rest with
  | nil =>
    intro pre cur result h
    simp only [breakAtLoop, ok_bind, breakAtEnd, breakAtRef]
    have hlen : word.length = pre.length + cur.length := by simp [h]
    by_cases hc : cur = []
    · simp [hc] at hlen
      simp [hlen, hc]
    · have : 0 < cur.length := List.length_pos_iff.mpr hc
      rw [if_pos (by omega), slice_ok (by omega) (Nat.le_refl _)]
      simp [hc, h]
  | cons r rest ih =>
    intro pre cur result h
    have hlen : word.length = pre.length + cur.length + (rest.length + 1) := by simp [h]; omega
    have hl : (pre ++ cur ++ [r]).length = pre.length + cur.length + 1 := by simp; omega
    simp only [breakAtLoop, breakAtRef]
    by_cases hr : f r = true
    · simp only [hr, if_true]
      by_cases hc : cur = []
      · rw [if_neg (by simp [hc])]
        have := ih (pre ++ cur ++ [r]) [] (result ++ [[r]]) (by simp [h])
        simp only [hl, List.length_nil, Nat.add_zero] at this
        rw [this]
        simp [hc]
      · have : 0 < cur.length := List.length_pos_iff.mpr hc
        rw [if_pos (by omega), slice_ok (by omega) (by omega)]
        simp only [ok_bind]
        have := ih (pre ++ cur ++ [r]) []
          (result ++ [(word.drop pre.length).take (pre.length + cur.length - pre.length)] ++ [[r]])
          (by simp [h])
        simp only [hl, List.length_nil, Nat.add_zero] at this
        rw [this]
        simp [hc, h]
    · have hr' : f r = false := by simpa using hr
      simp only [hr', Bool.false_eq_true, if_false]
      have := ih pre (cur ++ [r]) result (by simp [h])
      simpa [Nat.add_assoc] using this

theorem breakAtFunc_ref (word : List Rune) (f : Rune → Bool) :
    breakAtFunc word f = .ok (breakAtRef f [] word) := by
  rw [breakAtFunc_def]
  simpa using breakAtLoop_ref f word word [] [] [] (by simp)

theorem breakAtRef_flatten (f : Rune → Bool) : ∀ (rest cur : List Rune),
    (breakAtRef f cur rest).flatten = cur ++ rest := by
  intro rest
  induction rest with
  | nil => intro cur; by_cases h : cur = [] <;> simp [breakAtRef, h]
  | cons r rest ih =>
    intro cur
    by_cases hr : f r = true
    · by_cases h : cur = [] <;> simp [breakAtRef, h, hr, ih]
    · simp [breakAtRef, hr, ih]

theorem breakAtRef_word (f : Rune → Bool) (w rest cur : List Rune) (hw : ∀ r ∈ w, f r = false) :
    breakAtRef f cur (w ++ rest) = breakAtRef f (cur ++ w) rest := by
  induction w generalizing cur with
  | nil => simp
  | cons r w ih =>
    have hr : f r = false := hw r (by simp)
    simp only [List.cons_append, breakAtRef, hr, Bool.false_eq_true, if_false]
    rw [ih _ (fun x hx => hw x (by simp [hx]))]
    simp

theorem breakAtRef_kind (f : Rune → Bool) : ∀ (rest cur : List Rune), (∀ r ∈ cur, f r = false) →
    ∀ p ∈ breakAtRef f cur rest, IsSepPart f p ∨ IsTextPart f p := by
  intro rest
  induction rest with
  | nil =>
    intro cur h p hp
    by_cases hc : cur = []
    · simp [breakAtRef, hc] at hp
    · simp [breakAtRef, hc] at hp; subst hp; exact Or.inr ⟨hc, h⟩
  | cons r rest ih =>
    intro cur h p hp
    by_cases hr : f r = true
    · by_cases hc : cur = []
      · simp [breakAtRef, hr, hc] at hp
        rcases hp with hp | hp
        · exact Or.inl ⟨r, hp, hr⟩
        · exact ih [] (by simp) p hp
      · simp [breakAtRef, hr, hc] at hp
        rcases hp with hp | hp | hp
        · subst hp; exact Or.inr ⟨hc, h⟩
        · exact Or.inl ⟨r, hp, hr⟩
        · exact ih [] (by simp) p hp
    · have hr' : f r = false := by simpa using hr
      simp only [breakAtRef, hr', Bool.false_eq_true, if_false] at hp
      refine ih _ ?_ p hp
      intro x hx
      rcases List.mem_append.mp hx with h' | h'
      · exact h x h'
      · simp at h'; subst h'; exact hr'

theorem isSepPart_isTextPart (f : Rune → Bool) (p : List Rune) :
    IsSepPart f p → IsTextPart f p → False := by
  rintro ⟨r, rfl, hr⟩ ⟨_, h⟩
  have := h r (by simp)
  rw [hr] at this
  exact absurd this (by decide)

/-- No two neighbouring text parts; moreover, the first part of `breakAtRef f cur rest` is
`cur ++ …`. -/
theorem breakAtRef_maximal (f : Rune → Bool) : ∀ (rest cur : List Rune), (∀ r ∈ cur, f r = false) →
    ∀ pre a b post, breakAtRef f cur rest = pre ++ a :: b :: post →
      IsSepPart f a ∨ IsSepPart f b := by
  intro rest
  induction rest with
  | nil =>
    intro cur _ pre a b post h
    have : (breakAtRef f cur []).length ≤ 1 := by
      by_cases hc : cur = [] <;> simp [breakAtRef, hc]
    rw [h] at this
    simp at this
    omega
  | cons r rest ih =>
    intro cur hcur pre a b post h
    by_cases hr : f r = true
    · have ih' := ih [] (by simp)
      have key : ∀ pre' : List (List Rune), [r] :: breakAtRef f [] rest = pre' ++ a :: b :: post →
          IsSepPart f a ∨ IsSepPart f b := by
        intro pre' hp
        cases pre' with
        | nil =>
          simp at hp
          exact Or.inl ⟨r, hp.1.symm, hr⟩
        | cons x pre' =>
          simp at hp
          exact ih' pre' a b post hp.2
      by_cases hc : cur = []
      · simp [breakAtRef, hr, hc] at h
        exact key pre h
      · simp [breakAtRef, hr, hc] at h
        cases pre with
        | nil =>
          simp at h
          exact Or.inr ⟨r, h.2.1.symm, hr⟩
        | cons x pre' =>
          simp at h
          exact key pre' h.2
    · have hr' : f r = false := by simpa using hr
      simp only [breakAtRef, hr', Bool.false_eq_true, if_false] at h
      refine ih _ ?_ pre a b post h
      intro x hx
      rcases List.mem_append.mp hx with h' | h'
      · exact hcur x h'
      · simp at h'; subst h'; exact hr'

/-- Any split equals the computed one. -/
theorem isSplit_unique (f : Rune → Bool) : ∀ parts : List (List Rune), IsSplit f parts →
    breakAtRef f [] parts.flatten = parts := by
  intro parts
  induction parts with
  | nil => intro _; simp [breakAtRef]
  | cons p parts ih =>
    intro h
    have htail : IsSplit f parts :=
      ⟨fun q hq => h.kind q (by simp [hq]), fun pre a b post he =>
        h.maximal (p :: pre) a b post (by simp [he])⟩
    have ih' := ih htail
    rcases h.kind p (by simp) with ⟨r, rfl, hr⟩ | ⟨hne, hp⟩
    · simp [breakAtRef, hr, ih']
    · rw [List.flatten_cons, breakAtRef_word f p _ [] hp, List.nil_append]
      cases parts with
      | nil => simp [breakAtRef, hne]
      | cons q parts =>
        have : IsSepPart f q := by
          rcases h.maximal [] p q parts rfl with h1 | h1
          · exact (isSepPart_isTextPart f p h1 ⟨hne, hp⟩).elim
          · exact h1
        obtain ⟨r, rfl, hr⟩ := this
        have e : breakAtRef f [] parts.flatten = parts := by
          simpa [breakAtRef, hr] using ih'
        simp [breakAtRef, hr, hne, e]

end Verif.Proofs
