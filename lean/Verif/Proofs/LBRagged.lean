import Verif.Proofs.LBFit
import Verif.Proofs.LBChoice

/-! # Widths of the lines of a layout, and layouts of the first words of a paragraph -/

namespace Verif.Proofs.LB
open Verif.Go Verif.Model Verif.Model.LB Verif.Spec Verif.Spec.LB

theorem endWidth_nonneg {m : Measure} (h3 : 0 ≤ m.hyphen) (s : Option Sym) : 0 ≤ endWidth m s ∧ endWidth m s ≤ m.hyphen := by
  unfold endWidth
  split
  · split <;> omega
  · omega

/-! ## Lines that are not too short -/

/-- A line that does not end the paragraph has its exact width or a stretch of 6. -/
theorem stretch_inside {m : Measure} {first : Bool} {p : List Sym} {s : Sym} (h : 0 < lineStretch m first p (some s)) :
    lineStretch m first p (some s) = 6 := by
  rw [stretch_split] at h ⊢
  have h1 : endStretch m (some s) = 6 ∨ endStretch m (some s) = 0 := by
    cases s <;> simp [endStretch]
  have h2 : (if first then (0 : Int) else if markFirst (p ++ (some s).toList) then 6 else 0) = 0 ∨
      (if first then (0 : Int) else if markFirst (p ++ (some s).toList) then 6 else 0) = 6 := by
    split
    · exact Or.inl rfl
    · split <;> simp
  omega

theorem layout_lines_ne {hy : Sym → List Rune} {P : Bool → List Sym → Option Sym → Prop} {b first : Bool} {ss : List Sym}
    {ls : List Line} (h : Layout hy P b first ss ls) : ls ≠ [] := by
  induction h <;> simp

/-- All lines of a layout but the last one. -/
theorem layout_inner {hy : Sym → List Rune} {P : Bool → List Sym → Option Sym → Prop} {first : Bool} {ss : List Sym}
    {ls : List Line} (h : Layout hy P false first ss ls) :
    ∀ x ∈ ls.dropLast, (∀ s ∈ x.body, s ∈ ss) ∧ ∃ f s, P f x.body (some s) ∧ s ∈ ss ∧ (∀ t, s ≠ .part t) ∧
      (x.ending = hy s ∨ (s = .gap ∧ x.ending = [])) := by
  induction h with
  | blankLine h => cases h
  | lastBlank h => cases h
  | blankAfter _ h => cases h
  | last p _ h => intro x hx; cases hx
  | @brk first p s x rest lines a b c d e ih =>
    intro y hy'
    have hne : lines ≠ [] := layout_lines_ne e
    rw [List.dropLast_cons_of_ne_nil hne] at hy'
    rcases List.mem_cons.mp hy' with rfl | hy'
    · exact ⟨fun z hz => by simp [show z ∈ p from hz], first, s, d, by simp, b, c⟩
    · obtain ⟨h1, f, s', h2, h3, h4⟩ := ih y hy'
      have hsub : ∀ z ∈ startLine rest, z ∈ p ++ s :: rest := fun z hz => by simp [(startLine_infix rest).mem hz]
      exact ⟨fun z hz => hsub z (h1 z hz), f, s', h2, hsub _ h3, h4⟩

theorem start_width {m : Measure} (h2 : 0 ≤ m.space) (r : List Sym) : lineWidth m (startLine r) ≤ lineWidth m r := by
  induction r with
  | nil => exact le_refl _
  | cons x r ih => cases x <;> simp only [startLine, lineWidth] <;> omega

/-- The widths of what is set on the lines. -/
theorem layout_total {m : Measure} (h2 : 0 ≤ m.space) {hy : Sym → List Rune} {P : Bool → List Sym → Option Sym → Prop}
    {first : Bool} {ss : List Sym} {ls : List Line} (h : Layout hy P false first ss ls) :
    (ls.map (fun x => lineWidth m x.body)).sum ≤ lineWidth m ss := by
  induction h with
  | blankLine h => cases h
  | lastBlank h => cases h
  | blankAfter _ h => cases h
  | last p _ h => simp
  | @brk first p s x rest lines a b c d e ih =>
    rw [List.map_cons, List.sum_cons, lineWidth_append]
    have := start_width h2 rest
    have hs : lineWidth m rest ≤ lineWidth m (s :: rest) := by cases s <;> simp only [lineWidth] <;> first | exact absurd rfl (b _) | omega
    show lineWidth m p + _ ≤ _
    omega

/-! ## The first words of a paragraph -/

theorem start_append (c : List Sym) (r : List Sym) (h : startLine c ≠ []) : startLine (c ++ r) = startLine c ++ r := by
  induction c with
  | nil => exact absurd rfl h
  | cons x c ih =>
    cases x with
    | part t => rfl
    | _ => exact ih h

theorem start_nil {c : List Sym} (h : startLine c = []) (t : List Rune) : .part t ∉ c := by
  induction c with
  | nil => simp
  | cons x c ih =>
    cases x with
    | part t => cases h
    | _ => simpa using ih h

theorem width_places {m : Measure} (c : List Sym) (hp : ∀ t, .part t ∉ c) (hg : .gap ∉ c) : lineWidth m c = 0 := by
  induction c with
  | nil => rfl
  | cons x c ih =>
    have ih' := ih (fun t ht => hp t (by simp [ht])) (fun h => hg (by simp [h]))
    cases x with
    | part t => exact absurd (by simp) (hp t)
    | gap => exact absurd (by simp) hg
    | _ => exact ih'

theorem start_part {c : List Sym} (h : startLine c ≠ []) : StartsWithPart (startLine c) := by
  induction c with
  | nil => exact absurd rfl h
  | cons x c ih =>
    cases x with
    | part t => exact ⟨t, c, rfl⟩
    | _ => exact ih h

theorem layout_prefix {m : Measure} {W : Int} {ok : Int → Int → Prop} (hnn : ∀ p, 0 ≤ lineWidth m p) (h3 : 0 ≤ m.hyphen)
    (hend : ∀ d s, 0 < d → d ≤ W → (s = 10000 ∨ s = 9994) → ok d s) {first : Bool} {ss : List Sym} {ls : List Line}
    (h : Layout (fun _ => []) (Acceptable m W ok) false first ss ls) :
    ∀ a x b, ss = a ++ x :: b → StartsWithPart a → (∀ u v, a = u ++ .gap :: v → ∃ t, .part t ∈ v) →
      ∃ ls', Layout (fun _ => []) (Acceptable m W ok) false first a ls' := by
  have hlast : ∀ (first : Bool) (a : List Sym), StartsWithPart a → lineWidth m a ≤ W →
      ∃ ls', Layout (fun _ => []) (Acceptable m W ok) false first a ls' := by
    intro first a ha hw
    refine ⟨_, .last a ha ?_⟩
    have hst : lineStretch m first a none = 10000 ∨ lineStretch m first a none = 9994 := by
      rw [stretch_split]
      split
      · simp [endStretch]
      · split <;> simp [endStretch]
    unfold Acceptable
    simp only [endWidth, add_zero]
    have := hnn a
    rcases eq_or_lt_of_le hw with e | e
    · exact Or.inl e
    · exact Or.inr ⟨e, by rcases hst with e | e <;> rw [e] <;> decide, hend _ _ (by omega) (by omega) hst⟩
  have hle : ∀ {first p s}, Acceptable m W ok first p s → lineWidth m p ≤ W := by
    intro first p s h
    have := (endWidth_nonneg h3 s).1
    rcases h with h | ⟨h, _⟩ <;> omega
  induction h with
  | blankLine h => cases h
  | lastBlank h => cases h
  | blankAfter _ h => cases h
  | @last first p _ h =>
    intro a x b e ha _
    refine hlast first a ha ?_
    have := hle h
    rw [e, lineWidth_append] at this
    have := hnn (x :: b)
    omega
  | @brk first p s y rest lines hp b c d e ih =>
    intro a x b' huv ha hg
    have hpw := hle d
    rcases List.append_eq_append_iff.mp huv with ⟨c', h1, h2⟩ | ⟨a', h1, h2⟩
    · rcases c' with _ | ⟨c1, c2⟩
      · rw [List.append_nil] at h1
        exact hlast first a ha (by rw [h1]; exact hpw)
      · simp only [List.cons_append, List.cons.injEq] at h2
        obtain ⟨rfl, rfl⟩ := h2
        by_cases hs : startLine c2 = []
        · refine hlast first a ha ?_
          have hnp : ∀ t, .part t ∉ s :: c2 := by
            intro t ht
            rcases List.mem_cons.mp ht with h | h
            · exact b t h.symm
            · exact start_nil hs t h
          rw [h1, lineWidth_append, width_places (s :: c2) hnp ?_]
          · omega
          · intro hm
            obtain ⟨u, v, huv'⟩ := List.append_of_mem hm
            obtain ⟨t, ht⟩ := hg (p ++ u) v (by rw [h1, huv']; simp)
            exact hnp t (by rw [huv']; simp [ht])
        · rw [start_append c2 _ hs] at ih
          obtain ⟨ls', hls⟩ := ih _ _ _ rfl (start_part hs) (by
            intro u v huv'
            obtain ⟨w, hw⟩ := startLine_suffix c2
            refine hg (p ++ s :: w ++ u) v ?_
            rw [h1, ← hw, huv']
            simp)
          subst h1
          exact ⟨_, .brk p s y hp b c d hls⟩
    · refine hlast first a ha ?_
      rw [h1, lineWidth_append] at hpw
      have := hnn a'
      omega

end Verif.Proofs.LB
