import Verif.Proofs.LBSettable

/-! # Options within the usual ranges -/

set_option linter.unusedSectionVars false
set_option linter.unusedSimpArgs false

namespace Verif.Proofs.LB
open Verif.Go Verif.Model Verif.Model.LB Verif.Spec Verif.Spec.LB

variable {F : Type} [Arith F]

/-- The options that cannot be set have their values, the others are neither negative nor too large. -/
structure Usual (o : Options F) : Prop where
  line : o.demeritsLine = Arith.ofInt 10
  badness : o.badness = Arith.ofInt 100
  fitness : o.demeritsFitness = Arith.ofInt 200
  flagged : Within o.demeritsFlagged 10000
  hyphen : Within o.hyphenPenalty 10000
  tolerance : Within o.tolerance 50

variable [Laws F]

theorem within_int (a b : Int) (h1 : 0 ≤ a) (h2 : a ≤ b) (h3 : b ≤ 1000000) : Within (Arith.ofInt a : F) b := by
  have s1 : |a| ≤ Laws.bound F := small a (by rw [abs_le]; constructor <;> omega)
  have s2 : |b| ≤ Laws.bound F := small b (by rw [abs_le]; constructor <;> omega)
  refine ⟨?_, ?_⟩
  · rw [Laws.le_int _ _ (small _ (by decide)) s1]; simpa using h1
  · rw [Laws.le_int _ _ s1 s2]; simpa using h2

theorem within_mono {x : F} {a b : Int} (h : Within x a) (hab : a ≤ b) (ha : |a| ≤ Laws.bound F) (hb : |b| ≤ Laws.bound F) :
    Within x b :=
  ⟨h.1, Laws.le_trans _ _ _ h.2 (by rw [Laws.le_int _ _ ha hb]; simpa using hab)⟩

theorem within_not_neg {x : F} {a : Int} (h : Within x a) : Arith.lt x zero = false := by
  by_contra hc
  have := Laws.le_of_lt _ _ (by simpa using hc)
  rw [show (zero : F) = Arith.ofInt 0 from rfl, h.1] at this
  cases this

theorem Usual.tol {o : Options F} (h : Usual o) : Tol o := by
  refine ⟨?_, h.tolerance.1⟩
  refine Laws.lt_of_le _ _ _ h.tolerance.2 ?_
  unfold infinity
  rw [Laws.lt_int _ _ (small _ (by decide)) (small _ (by decide))]
  rfl

/-- The demerits of a line before the extra ones. -/
theorem demerits_within {l : LineBreaker F} {m : Measure} (hs : Setup l m) (hu : Usual l.toOptions) (node : Node F) (ratio : F)
    (h1 : Arith.le (Arith.ofInt (-1)) ratio = true) (h2 : Arith.le ratio l.tolerance = true)
    (hn : node.kind = .glue ∨ node.kind = .penalty ∧ (node.penalty = minusInfinity ∨ ∃ s, node.penalty = penOf l s)) :
    Within (demeritsForRatio l.toOptions node ratio) (12510010 ^ 2) := by
  have hB := Laws.bound_large (F := F)
  have big : ∀ a : Int, 0 ≤ a → a ≤ 2 ^ 53 → |a| ≤ Laws.bound F := by
    intro a h1 h2; rw [abs_of_nonneg h1]; omega
  have habs : Within (Arith.abs ratio) 50 := by
    refine Laws.abs_within _ _ ?_ ?_ (by decide)
    · refine Laws.le_trans _ _ _ ?_ h1
      rw [Laws.le_int _ _ (small _ (by decide)) (small _ (by decide))]; rfl
    · exact Laws.le_trans _ _ _ h2 hu.tolerance.2
  have hcube := Laws.cube_within _ _ habs (by decide)
  have hmul := Laws.mul_within _ _ _ _ (within_int (F := F) 100 100 (by decide) (by decide) (by decide)) hcube (by decide) (by decide) (by decide)
  have hbad := Laws.add_within _ _ _ _ (within_int (F := F) 10 10 (by decide) (by decide) (by decide)) hmul (by decide)
  obtain ⟨bad, hbd⟩ : ∃ bad, bad = Arith.add (Arith.ofInt 10 : F) (Arith.mul (Arith.ofInt 100) (Arith.pow (Arith.abs ratio) 3)) := ⟨_, rfl⟩
  rw [← hbd] at hbad
  have hb2 : Within bad 12510010 := within_mono hbad (by decide) (big _ (by decide) (by decide)) (big _ (by decide) (by decide))
  have hsq : Within (Arith.pow bad 2) (12510010 ^ 2) := Laws.square_within _ _ hb2 (by decide)
  have hpen : ∀ p : F, Within p 10000 → Within (Arith.pow (Arith.add bad p) 2) (12510010 ^ 2) := by
    intro p hp
    exact Laws.square_within _ _ (Laws.add_within _ _ _ _ hbad hp (by decide)) (by decide)
  unfold demeritsForRatio
  simp only [hu.line, hu.badness, ← hbd]
  rcases hn with hk | ⟨hk, hp | ⟨s, hp⟩⟩
  · rw [if_neg (by simp [hk]), if_neg (by simp [hk])]
    exact hsq
  · rw [if_neg, if_neg]
    · exact hsq
    · simp [hp, minusInfinity, eq_small (F := F) (-10000) (-10000) (by decide) (by decide)]
    · rw [hp]
      simp [zero, minusInfinity, Laws.lt_int (F := F) 0 (-10000) (small _ (by decide)) (small _ (by decide))]
  · have hpw : Within node.penalty 10000 := by
      rw [hp]
      cases s with
      | part t => exact within_int _ _ (by decide) (by decide) (by decide)
      | gap => exact within_int _ _ (by decide) (by decide) (by decide)
      | soft => exact hu.hyphen
      | mark => simp only [penOf, hs.punct]; exact within_int _ _ (by decide) (by decide) (by decide)
      | hard => simp only [penOf, hs.hard]; exact within_int _ _ (by decide) (by decide) (by decide)
    by_cases hlt : Arith.lt zero node.penalty = true
    · rw [if_pos ⟨hk, hlt⟩]
      exact hpen _ hpw
    · rw [if_neg (by simp [hlt])]
      split
      · exact Laws.sub_zero_square _ _ _ _ hsq hpw (by simpa [zero] using hlt)
      · exact hsq

theorem Usual.tame {l : LineBreaker F} {m : Measure} (hs : Setup l m) (hu : Usual l.toOptions) : TameOpts l := by
  intro nodes a node ratio d h0 h1 h2 hn hd
  have hw := demerits_within hs hu node ratio h1 h2 hn
  have hB := Laws.bound_large (F := F)
  have big : ∀ a : Int, 0 ≤ a → a ≤ 2 ^ 53 → |a| ≤ Laws.bound F := by
    intro a h1 h2; rw [abs_of_nonneg h1]; omega
  unfold demeritsAndClass at hd
  cases hix : index nodes (a.position : Int) with
  | error e => rw [hix] at hd; cases hd
  | ok previous =>
    rw [hix] at hd
    simp only [ok_bind, pure_eq_ok, Except.ok.injEq] at hd
    obtain ⟨d1, hd1⟩ : ∃ d1, d1 = (if node.kind = .penalty ∧ node.flagged = true ∧ previous.kind = .penalty ∧
      previous.flagged = true then Arith.add (demeritsForRatio l.toOptions node ratio) l.demeritsFlagged
      else demeritsForRatio l.toOptions node ratio) := ⟨_, rfl⟩
    have hw1 : Within d1 (12510010 ^ 2 + 10000) := by
      rw [hd1]
      split
      · exact Laws.add_within _ _ _ _ hw hu.flagged (by decide)
      · exact within_mono hw (by decide) (big _ (by decide) (by decide)) (big _ (by decide) (by decide))
    obtain ⟨d2, hd2⟩ : ∃ d2, d2 = (if (newFitnessClass ratio).isAwayFrom a.fitness = true then
      Arith.add d1 l.demeritsFitness else d1) := ⟨_, rfl⟩
    have hfit : Within l.demeritsFitness 200 := by rw [hu.fitness]; exact within_int _ _ (by decide) (by decide) (by decide)
    have hw2 : Within d2 (12510010 ^ 2 + 10000 + 200) := by
      rw [hd2]
      split
      · exact Laws.add_within _ _ _ _ hw1 hfit (by decide)
      · exact within_mono hw1 (by decide) (big _ (by decide) (by decide)) (big _ (by decide) (by decide))
    rw [← hd1, ← hd2, h0] at hd
    have hw3 : Within (Arith.add d2 (zero : F)) (12510010 ^ 2 + 10000 + 200 + 0) :=
      Laws.add_within _ _ _ _ hw2 (within_int 0 0 (by decide) (by decide) (by decide)) (by decide)
    rw [← hd]
    refine ⟨Laws.within_lt_max _ _ hw3 (by decide), within_not_neg hw3, ?_⟩
    exact within_not_neg (Laws.add_within _ _ _ _ hw3 hfit (by decide))

end Verif.Proofs.LB
