import Mathlib.Tactic.Conv
import Mathlib.Tactic.ByContra
import Verif.Proofs.Attributes
import Verif.Spec.Levels

/-! # What is written at the start and at the end of a line, for any text -/

namespace Verif.Model
open Verif.Go Verif.Spec

theorem dep_depth (l : List Piece) (n : Nat) : dep 0 (l.take (n + 1)) = depthAfter l n := by
  rw [dep_count]; unfold depthAfter; omega

theorem starts_append (a b : List Piece) : starts (a ++ b) = starts a + starts b := by
  simp [starts]

theorem stops_append (a b : List Piece) : stops (a ++ b) = stops a + stops b := by
  simp [stops]

theorem starts_one (p : Piece) : starts [p] = if p.start = [] then 0 else 1 := by
  unfold starts
  by_cases h : p.start = [] <;> simp [h]

theorem stops_one (p : Piece) : stops [p] = if p.stop = [] then 0 else 1 := by
  unfold stops
  by_cases h : p.stop = [] <;> simp [h]

theorem starts_take_succ (l : List Piece) (k : Nat) (p : Piece) (h : l[k]? = some p) :
    starts (l.take (k + 1)) = starts (l.take k) + if p.start = [] then 0 else 1 := by
  rw [List.take_add_one, h, starts_append]
  show _ + starts [p] = _
  rw [starts_one]

theorem stops_take_succ (l : List Piece) (k : Nat) (p : Piece) (h : l[k]? = some p) :
    stops (l.take (k + 1)) = stops (l.take k) + if p.stop = [] then 0 else 1 := by
  rw [List.take_add_one, h, stops_append]
  show _ + stops [p] = _
  rw [stops_one]

theorem lv_levelAt (l : List Piece) (k : Nat) :
    (lv 0 l)[k]? = l[k]?.map (fun p => ⟨p.text, p.start, p.stop, levelAt l k⟩) := by
  rw [lv_getElem?]
  cases h : l[k]? with
  | none => rfl
  | some p =>
    simp only [Option.map_some, Option.some.injEq, Attribute.mk.injEq, true_and]
    unfold levelAt
    rw [starts_take_succ l k p h, dep_count]
    split <;> simp <;> omega

theorem depth_level (l : List Piece) (k : Nat) (p : Piece) (h : l[k]? = some p) :
    depthAfter l k = levelAt l k - if p.stop = [] then 0 else 1 := by
  unfold depthAfter levelAt
  rw [stops_take_succ l k p h]
  split <;> simp <;> omega

/-- The place where going back stops. -/
theorem backtrack_spec (l : List Piece) (L : Int) : ∀ k, k ≤ l.length → 
    backtrackLoop (lv 0 l) L k ≤ k ∧
      (backtrackLoop (lv 0 l) L k = 0 ∨ levelAt l (backtrackLoop (lv 0 l) L k - 1) < L) ∧
      ∀ j, backtrackLoop (lv 0 l) L k ≤ j → j < k → L ≤ levelAt l j
  | 0, _ => ⟨Nat.le_refl _, Or.inl rfl, fun j _ h => absurd h (Nat.not_lt_zero _)⟩
  | k + 1, hk => by
    obtain ⟨p, hp⟩ : ∃ p, l[k]? = some p := ⟨_, List.getElem?_eq_getElem hk⟩
    have e : (lv 0 l)[k]? = some ⟨p.text, p.start, p.stop, levelAt l k⟩ := by rw [lv_levelAt, hp]; rfl
    obtain ⟨h1, h2, h3⟩ := backtrack_spec l L k (by omega)
    rw [backtrackLoop, e]
    simp only []
    by_cases h : levelAt l k < L
    · rw [if_pos h]
      exact ⟨Nat.le_refl _, Or.inr h, fun j a b => by omega⟩
    · rw [if_neg h]
      refine ⟨by omega, h2, fun j a b => ?_⟩
      by_cases e : j = k
      · subst e; omega
      · exact h3 j a (by omega)

/-- The stop sequences written from the piece number `b` on. -/
theorem stop_spec (l : List Piece) (L : Int) : ∀ (m b : Nat) (out : List Rune), b + m = l.length →
    ∃ e, b ≤ e ∧ e ≤ l.length ∧ (∀ j, b ≤ j → j < e → L ≤ levelAt l j) ∧ (e = l.length ∨ levelAt l e < L) ∧
      stopLoop L ((lv 0 l).drop b) out = out ++ (((l.take e).drop b).map Piece.stop).flatten
  | 0, b, out, h => by
    refine ⟨b, Nat.le_refl _, by omega, fun j a c => by omega, Or.inl (by omega), ?_⟩
    rw [List.drop_of_length_le (by simp; omega), List.drop_of_length_le (by simp; omega)]
    simp [stopLoop]
  | m + 1, b, out, h => by
    have hb : b < l.length := by omega
    have hg : l[b]? = some l[b] := List.getElem?_eq_getElem hb
    have hb' : b < (lv 0 l).length := by simpa using hb
    have e : (lv 0 l)[b]? = some ⟨l[b].text, l[b].start, l[b].stop, levelAt l b⟩ := by rw [lv_levelAt, hg]; rfl
    rw [List.getElem?_eq_getElem hb', Option.some.injEq] at e
    rw [List.drop_eq_getElem_cons hb', e, stopLoop]
    simp only []
    by_cases h' : levelAt l b < L
    · rw [if_pos h']
      refine ⟨b, Nat.le_refl _, by omega, fun j a c => by omega, Or.inr h', ?_⟩
      rw [List.drop_of_length_le (by simp; omega)]
      simp
    · rw [if_neg h']
      obtain ⟨e', h1, h2, h3, h4, h5⟩ := stop_spec l L m (b + 1)
        ((⟨l[b].text, l[b].start, l[b].stop, levelAt l b⟩ : Attribute).writeStop out) (by omega)
      refine ⟨e', by omega, h2, fun j a c => ?_, h4, ?_⟩
      · by_cases ej : j = b
        · subst ej; omega
        · exact h3 j (by omega) c
      · rw [h5, writeStop_eq]
        have hlt : b < (l.take e').length := by simp; omega
        rw [List.drop_eq_getElem_cons (l := l.take e') hlt]
        simp

/-- There is only one group. -/
theorem group_unique {l : List Piece} {n b e b' e' : Nat} (h : Group l n b e) (h' : Group l n b' e') :
    b = b' ∧ e = e' := by
  have key : ∀ {b e b' e' : Nat}, Group l n b e → Group l n b' e' → b ≤ b' ∧ e' ≤ e := by
    intro b e b' e' h h'
    refine ⟨?_, ?_⟩
    · rcases Nat.lt_or_ge b' b with hlt | hge
      · rcases h.left with e0 | e0
        · omega
        · have := h'.inside (b - 1) (by omega) (by have := h.lo; have := h'.hi; omega)
          omega
      · exact hge
    · rcases Nat.lt_or_ge e e' with hlt | hge
      · rcases h.right with e0 | e0
        · have := h'.le; omega
        · have := h'.inside e (by have := h'.lo; have := h.hi; omega) hlt
          omega
      · exact hge
  have k1 := key h h'
  have k2 := key h' h
  omega

/-- What is written at the start and at the end of a line. -/
theorem line_spec (l : List Piece) (n : Nat) (hn : n < l.length) (f : Bool) : ∃ b e, Group l n b e ∧
    (∀ out, AIter.startOfLine (lv 0 l) ⟨f, some n⟩ out =
      if depthAfter l n = 0 then out else out ++ (((l.take (n + 1)).drop b).map Piece.start).flatten) ∧
    (∀ out, AIter.endOfLine (lv 0 l) ⟨f, some n⟩ out =
      if depthAfter l n = 0 then out else out ++ (((l.take e).drop b).map Piece.stop).flatten) := by
  have hg : l[n]? = some l[n] := List.getElem?_eq_getElem hn
  have e0 : (lv 0 l)[n]? = some ⟨l[n].text, l[n].start, l[n].stop, levelAt l n⟩ := by rw [lv_levelAt, hg]; rfl
  have hd := depth_level l n _ hg
  have hcur : (if (⟨l[n].text, l[n].start, l[n].stop, levelAt l n⟩ : Attribute).hasStop then levelAt l n - 1 else levelAt l n) =
      depthAfter l n := by
    rw [hd]
    unfold Attribute.hasStop
    cases h : l[n].stop <;> simp
  obtain ⟨b1, b2, b3⟩ := backtrack_spec l (depthAfter l n) n (by omega)
  obtain ⟨e, s1, s2, s3, s4, s5⟩ := stop_spec l (depthAfter l n) (l.length - backtrackLoop (lv 0 l) (depthAfter l n) n)
    (backtrackLoop (lv 0 l) (depthAfter l n) n) [] (by omega)
  have hln : depthAfter l n ≤ levelAt l n := by
    rw [hd]; split <;> omega
  have hne : n < e := by
    rcases Nat.lt_or_ge n e with h | h
    · exact h
    · exfalso
      rcases s4 with h4 | h4
      · omega
      · by_cases he : e = n
        · subst he; omega
        · have := b3 e s1 (by omega)
          omega
  refine ⟨backtrackLoop (lv 0 l) (depthAfter l n) n, e, ⟨b1, hne, s2, s3, b2, s4⟩, ?_, ?_⟩
  · intro out
    unfold AIter.startOfLine
    simp only [e0, hcur]
    split
    · rfl
    · rw [startLoop_eq]
      congr 2
      have : n - backtrackLoop (lv 0 l) (depthAfter l n) n + 1 = n + 1 - backtrackLoop (lv 0 l) (depthAfter l n) n := by omega
      rw [this, ← List.drop_take]
      have hm : (lv 0 l).map Attribute.start = l.map Piece.start := by
        have : ∀ (l : List Piece) (d : Int), (lv d l).map Attribute.start = l.map Piece.start := by
          intro l
          induction l with
          | nil => intro d; rfl
          | cons p l ih => intro d; simp [lv, ih]
        exact this l 0
      rw [List.map_drop, List.map_take, hm, List.map_drop, List.map_take]
  · intro out
    unfold AIter.endOfLine
    simp only [e0, hcur]
    split
    · rfl
    · obtain ⟨e', s1', s2', s3', s4', s5'⟩ := stop_spec l (depthAfter l n) (l.length - backtrackLoop (lv 0 l) (depthAfter l n) n)
        (backtrackLoop (lv 0 l) (depthAfter l n) n) out (by omega)
      have : e' = e := by
        rcases Nat.lt_trichotomy e' e with h | h | h
        · exfalso
          rcases s4' with h4 | h4
          · omega
          · have := s3 e' s1' h; omega
        · exact h
        · exfalso
          rcases s4 with h4 | h4
          · omega
          · have := s3' e s1 h; omega
      rw [s5', this]

/-! ## Open styles -/

/-- The styles open after one more piece. -/
def stepOpen (o : List (List Rune)) (p : Piece) : List (List Rune) :=
  if p.stop = [] then (if p.start = [] then o else o ++ [p.start])
  else (if p.start = [] then o else o ++ [p.start]).dropLast

theorem openAfter_take_succ (o : List (List Rune)) (l : List Piece) (k : Nat) (p : Piece) (h : l[k]? = some p) :
    openAfter o (l.take (k + 1)) = stepOpen (openAfter o (l.take k)) p := by
  rw [List.take_add_one, h, openAfter_append]
  rfl

theorem open_deep (l : List Piece) (n : Nat) (hn : n ≤ l.length) (hs : NoStray l n) : ∀ k, k ≤ n →
    (openAfter [] (l.take k)).length + stops (l.take k) = starts (l.take k) ∧
      ∀ o, openAfter o (l.take k) = o ++ openAfter [] (l.take k)
  | 0, _ => by simp [openAfter, stops, starts]
  | k + 1, hk => by
    have hlt : k < l.length := by omega
    have hg : l[k]? = some l[k] := List.getElem?_eq_getElem hlt
    obtain ⟨h1, h2⟩ := open_deep l n hn hs k (by omega)
    have h3 := hs (k + 1) hk
    rw [starts_take_succ l k _ hg, stops_take_succ l k _ hg] at h3 ⊢
    have key : ∀ o, openAfter o (l.take (k + 1)) = stepOpen (openAfter o (l.take k)) l[k] :=
      fun o => openAfter_take_succ o l k _ hg
    generalize l[k] = p at h3 key
    rw [key]
    by_cases hst : p.start = []
    · by_cases hsp : p.stop = []
      · simp only [stepOpen, hst, hsp, if_true] at key ⊢
        exact ⟨by omega, fun o => by rw [key, h2]⟩
      · simp only [stepOpen, hst, hsp, if_true, if_false] at key h3 ⊢
        have hne : openAfter [] (l.take k) ≠ [] := by
          intro e; rw [e] at h1; simp at h1; omega
        refine ⟨?_, fun o => ?_⟩
        · have := List.length_pos_iff.mpr hne
          rw [List.length_dropLast]; omega
        · rw [key, h2, List.dropLast_append_of_ne_nil hne]
    · by_cases hsp : p.stop = []
      · simp only [stepOpen, hst, hsp, if_true, if_false] at key ⊢
        refine ⟨?_, fun o => ?_⟩
        · rw [List.length_append]; simp; omega
        · rw [key, h2, List.append_assoc]
      · simp only [stepOpen, hst, hsp, if_false, List.dropLast_concat] at key h3 ⊢
        exact ⟨by omega, fun o => by rw [key, h2]⟩

theorem open_length {l : List Piece} {n : Nat} (hn : n ≤ l.length) (hs : NoStray l n) :
    (openAfter [] (l.take n)).length + stops (l.take n) = starts (l.take n) :=
  (open_deep l n hn hs n (Nat.le_refl _)).1

/-- The open styles are styles that were opened. -/
theorem open_sub (l : List Piece) : ∀ o, ∀ s ∈ openAfter o l, s ∈ o ∨ s ∈ startsOf l := by
  induction l with
  | nil => intro o s h; exact Or.inl h
  | cons p l ih =>
    intro o s h
    unfold openAfter at h
    simp only [] at h
    have h2 : s ∈ startsOf (p :: l) ↔ (s = p.start ∧ p.start ≠ []) ∨ s ∈ startsOf l := by
      unfold startsOf
      by_cases hp : p.start = []
      · simp [hp]
      · simp [hp]
    rw [h2]
    rcases ih _ s h with h | h
    · have : s ∈ (if p.start = [] then o else o ++ [p.start]) := by
        by_cases hsp : p.stop = []
        · simpa [hsp] using h
        · rw [if_neg hsp] at h
          exact List.dropLast_subset _ h
      by_cases hp : p.start = []
      · rw [if_pos hp] at this; exact Or.inl this
      · rw [if_neg hp, List.mem_append, List.mem_singleton] at this
        rcases this with h | h
        · exact Or.inl h
        · exact Or.inr (Or.inl ⟨h, hp⟩)
    · exact Or.inr (Or.inr h)

theorem startsOf_append (a b : List Piece) : startsOf (a ++ b) = startsOf a ++ startsOf b := by
  simp [startsOf]

theorem startsOf_length (l : List Piece) : (startsOf l).length = starts l := by
  induction l with
  | nil => rfl
  | cons p l ih =>
    by_cases h : p.start = [] <;> simp_all [startsOf, starts]

theorem starts_split (l : List Piece) {b m : Nat} (h : b ≤ m) :
    starts (l.take m) = starts (l.take b) + starts ((l.take m).drop b) := by
  rw [← starts_append]
  congr 1
  have e := List.take_append_drop b (l.take m)
  rw [List.take_take, Nat.min_eq_left h] at e
  exact e.symm

theorem stops_split (l : List Piece) {b m : Nat} (h : b ≤ m) :
    stops (l.take m) = stops (l.take b) + stops ((l.take m).drop b) := by
  rw [← stops_append]
  congr 1
  have e := List.take_append_drop b (l.take m)
  rw [List.take_take, Nat.min_eq_left h] at e
  exact e.symm

theorem plain_of_none {l : List Piece} (h1 : starts l = 0) (h2 : stops l = 0) : Plain l := by
  induction l with
  | nil => exact .nil
  | cons p l ih =>
    have e1 : starts (p :: l) = starts [p] + starts l := starts_append [p] l
    have e2 : stops (p :: l) = stops [p] + stops l := stops_append [p] l
    rw [e1, starts_one] at h1
    rw [e2, stops_one] at h2
    obtain ⟨t, s, q⟩ := p
    by_cases hs : s = []
    · by_cases hq : q = []
      · subst hs hq
        exact .cons t (ih (by simpa using h1) (by simpa using h2))
      · simp [hq] at h2
    · simp [hs] at h1

theorem plain_none {l : List Piece} (h : Plain l) : starts l = 0 ∧ stops l = 0 ∧ startsOf l = [] := by
  induction h with
  | nil => exact ⟨rfl, rfl, rfl⟩
  | cons t _ ih =>
    refine ⟨by simpa [starts] using ih.1, by simpa [stops] using ih.2.1, by simpa [startsOf] using ih.2.2⟩

/-- The depth before the group, when it is positive. -/
theorem group_before {l : List Piece} {n b e : Nat} (hn : n < l.length) (hg : Group l n b e)
    (hd : 0 < depthAfter l n) : (starts (l.take b) : Int) - stops (l.take b) = depthAfter l n - 1 ∧
      ∃ p, l[b]? = some p ∧ p.start ≠ [] := by
  have hb : b < l.length := by have := hg.lo; omega
  have hgb : l[b]? = some l[b] := List.getElem?_eq_getElem hb
  have h1 := hg.inside b (Nat.le_refl _) (by have := hg.lo; have := hg.hi; omega)
  unfold levelAt at h1
  rw [starts_take_succ l b _ hgb] at h1
  have h2 : (starts (l.take b) : Int) - stops (l.take b) ≤ depthAfter l n - 1 := by
    rcases hg.left with e | e
    · subst e
      simp [starts, stops]
      omega
    · cases b with
      | zero => simp [starts, stops]; omega
      | succ c =>
        simp only [Nat.add_sub_cancel] at e
        have hgc : l[c]? = some l[c] := List.getElem?_eq_getElem (by omega)
        have := depth_level l c _ hgc
        unfold depthAfter at this
        rw [this]
        split <;> omega
  by_cases hp : l[b].start = []
  · rw [if_pos hp] at h1; simp at h1; omega
  · rw [if_neg hp] at h1
    push_cast at h1
    exact ⟨by omega, _, hgb, hp⟩

/-- The styles resumed are the open ones exactly when there is at most one, with no style closed just before it. -/
theorem resumed_right {l : List Piece} {n b e : Nat} (hn : n < l.length) (hg : Group l n b e) (hs : NoStray l (n + 1))
    (hd : (startsOf (l.take (n + 1))).Nodup) (hpos : depthAfter l n ≠ 0) :
    startsOf ((l.take (n + 1)).drop b) = openAfter [] (l.take (n + 1)) ↔
      ∃ pre t s mid, l.take (n + 1) = pre ++ ⟨t, s, []⟩ :: mid ∧ s ≠ [] ∧ Balanced pre ∧
        (pre = [] ∨ ∃ q t', pre = q ++ [⟨t', [], []⟩]) ∧ Plain mid := by
  have hD : 0 < depthAfter l n := by
    have := hs (n + 1) (Nat.le_refl _)
    unfold depthAfter at hpos ⊢
    omega
  have hlo := hg.lo
  have hlen := open_length (n := n + 1) (by omega) hs
  have hbl : (l.take b).length = b := by simp; omega
  have htb : (l.take (n + 1)).take b = l.take b := by rw [List.take_take, Nat.min_eq_left (by omega)]
  constructor
  · intro heq
    obtain ⟨hb, p, hp, hps⟩ := group_before hn hg hD
    -- the segment
    have hseg : NoStray ((l.take (n + 1)).drop b) (n + 1 - b) := by
      intro k hk
      rcases Nat.eq_zero_or_pos k with rfl | hkp
      · simp [starts, stops]
      · have e1 : ((l.take (n + 1)).drop b).take k = (l.take (b + k)).drop b := by
          rw [List.take_drop, List.take_take, Nat.min_eq_left (by omega)]
        rw [e1]
        have h1 := starts_split l (show b ≤ b + k by omega)
        have h2 := stops_split l (show b ≤ b + k by omega)
        have hlt : b + k - 1 < l.length := by omega
        have h3 := depth_level l (b + k - 1) _ (List.getElem?_eq_getElem hlt)
        have h4 := hg.inside (b + k - 1) (by omega) (by have := hg.hi; omega)
        unfold depthAfter at h3
        rw [show b + k - 1 + 1 = b + k by omega] at h3
        have : (starts (l.take (b + k)) : Int) - stops (l.take (b + k)) ≥ depthAfter l n - 1 := by
          rw [h3]; split <;> omega
        omega
    have hsl : ((l.take (n + 1)).drop b).length = n + 1 - b := by simp; omega
    have hso := open_deep ((l.take (n + 1)).drop b) (n + 1 - b) (by omega) hseg (n + 1 - b) (Nat.le_refl _)
    rw [List.take_of_length_le (by omega)] at hso
    have happ : openAfter [] (l.take (n + 1)) = openAfter [] (l.take b) ++ openAfter [] ((l.take (n + 1)).drop b) := by
      conv_lhs => rw [← List.take_append_drop b (l.take (n + 1)), openAfter_append, htb, hso.2]
    have hob := open_length (l := l) (n := b) (by omega) (fun k hk => hs k (by omega))
    have hpre : openAfter [] (l.take b) = [] := by
      cases ho : openAfter [] (l.take b) with
      | nil => rfl
      | cons x xs =>
        exfalso
        have hx : x ∈ openAfter [] (l.take b) := by rw [ho]; simp
        have h1 : x ∈ startsOf (l.take b) := by
          rcases open_sub (l.take b) [] x hx with h | h
          · cases h
          · exact h
        have h2 : x ∈ startsOf ((l.take (n + 1)).drop b) := by
          rw [heq, happ, ho]; simp
        rw [← List.take_append_drop b (l.take (n + 1)), htb, startsOf_append, List.nodup_append] at hd
        exact hd.2.2 x h1 x h2 rfl
    rw [hpre] at hob happ
    simp only [List.length_nil, Nat.zero_add] at hob
    have hbn := starts_split l (show b ≤ n + 1 by omega)
    have hbn2 := stops_split l (show b ≤ n + 1 by omega)
    have hsl2 := startsOf_length ((l.take (n + 1)).drop b)
    rw [heq] at hsl2
    unfold depthAfter at hb
    have hst1 : starts ((l.take (n + 1)).drop b) = 1 := by omega
    have hsp0 : stops ((l.take (n + 1)).drop b) = 0 := by omega
    have hcons : (l.take (n + 1)).drop b = p :: (l.take (n + 1)).drop (b + 1) := by
      have hbt : b < (l.take (n + 1)).length := by simp; omega
      rw [List.drop_eq_getElem_cons hbt]
      congr 1
      have : (l.take (n + 1))[b]? = some p := by rw [List.getElem?_take, if_pos (by omega)]; exact hp
      rw [List.getElem?_eq_getElem hbt] at this
      simpa using this
    rw [hcons] at hst1 hsp0
    have e1 := starts_append [p] ((l.take (n + 1)).drop (b + 1))
    have e2 := stops_append [p] ((l.take (n + 1)).drop (b + 1))
    rw [List.singleton_append] at e1 e2
    rw [starts_one, if_neg hps] at e1
    rw [stops_one] at e2
    have hpst : p.stop = [] := by
      by_contra h
      rw [if_neg h] at e2; omega
    obtain ⟨t, s, q⟩ := p
    simp only at hpst hps
    subst hpst
    refine ⟨l.take b, t, s, (l.take (n + 1)).drop (b + 1), ?_, hps, ⟨hpre, by omega⟩, ?_, plain_of_none (by omega) ?_⟩
    · rw [← hcons, ← htb, List.take_append_drop]
    · cases b with
      | zero => left; simp
      | succ c =>
        right
        have hc : c < l.length := by omega
        have hgc : l[c]? = some l[c] := List.getElem?_eq_getElem hc
        refine ⟨l.take c, l[c].text, ?_⟩
        rw [List.take_add_one, hgc]
        simp only [Option.toList]
        congr 2
        have hlv := hg.left
        simp only [Nat.add_sub_cancel, Nat.succ_ne_zero, false_or] at hlv
        have hd1 : depthAfter l n = 1 := by unfold depthAfter; omega
        unfold levelAt at hlv
        have h0 := hs c (by omega)
        have s1 := starts_take_succ l c _ hgc
        have s2 := stops_take_succ l c _ hgc
        have hst : l[c].start = [] := by
          by_contra h
          rw [if_neg h] at s1; omega
        rw [if_pos hst] at s1
        have hsp : l[c].stop = [] := by
          by_contra h
          rw [if_neg h] at s2; omega
        cases hh : l[c] with
        | mk t' s' q' =>
          rw [hh] at hst hsp
          simp only at hst hsp
          subst hst hsp
          rfl
    · rw [if_pos rfl] at e2; omega
  · rintro ⟨pre, t, s, mid, h1, h2, h3, h4, h5⟩
    obtain ⟨m1, m2, m3⟩ := plain_none h5
    have hlen1 : pre.length + (mid.length + 1) = n + 1 := by
      have := congrArg List.length h1
      simp at this; omega
    have hpl : l.take pre.length = pre := by
      have := congrArg (List.take pre.length) h1
      rw [List.take_take, Nat.min_eq_left (by omega), List.take_left'] at this
      · exact this
      · rfl
    have hopen : openAfter [] (l.take (n + 1)) = [s] := by
      rw [h1, openAfter_append, h3.1]
      simp [openAfter, h2, h5.openAfter]
    -- the group starts with the style
    have hb : b = pre.length := by
      have hgl : ∀ k, k ≤ mid.length → levelAt l (pre.length + k) = 1 := by
        intro k hk
        have e1 : l.take (pre.length + k) = pre ++ (⟨t, s, []⟩ :: mid).take k := by
          have := congrArg (List.take (pre.length + k)) h1
          rw [List.take_take, Nat.min_eq_left (by omega)] at this
          rw [this, List.take_length_add_append]
        have e2 : l.take (pre.length + k + 1) = pre ++ ⟨t, s, []⟩ :: mid.take k := by
          have := congrArg (List.take (pre.length + (k + 1))) h1
          rw [List.take_take, Nat.min_eq_left (by omega)] at this
          rw [show pre.length + k + 1 = pre.length + (k + 1) by omega, this, List.take_length_add_append, List.take_succ_cons]
        unfold levelAt
        rw [e1, e2, starts_append, stops_append]
        have f1 : starts (⟨t, s, []⟩ :: mid.take k) = 1 := by
          have := starts_append [⟨t, s, []⟩] (mid.take k)
          rw [List.singleton_append, starts_one, if_neg h2, (plain_none (h5.take k)).1] at this
          exact this
        have f2 : stops ((⟨t, s, []⟩ :: mid).take k) = 0 := by
          cases k with
          | zero => rfl
          | succ k =>
            rw [List.take_succ_cons]
            have := stops_append [⟨t, s, []⟩] (mid.take k)
            rw [List.singleton_append, stops_one, if_pos rfl, (plain_none (h5.take k)).2.1] at this
            exact this
        rw [f1, f2]
        have := h3.2
        omega
      have hD1 : depthAfter l n = 1 := by
        unfold depthAfter
        have := open_length (n := n + 1) (by omega) hs
        rw [hopen] at this
        simp only [List.length_singleton] at this
        omega
      rcases Nat.lt_trichotomy b pre.length with h | h | h
      · exfalso
        rcases h4 with rfl | ⟨q, t', rfl⟩
        · simp at h
        · have := hg.inside q.length (by simp at h; omega) (by have := hg.hi; simp at hlen1; omega)
          rw [hD1] at this
          unfold levelAt at this
          have e1 : l.take q.length = q := by
            have := congrArg (List.take q.length) hpl
            rw [List.take_take, Nat.min_eq_left (by simp), List.take_left'] at this
            · exact this
            · rfl
          have e2 : l.take (q.length + 1) = q ++ [⟨t', [], []⟩] := by
            rw [← hpl]; congr 1; simp
          have h32 := h3.2
          rw [e1, e2, starts_append, starts_one, if_pos rfl] at this
          rw [starts_append, stops_append, starts_one, stops_one, if_pos rfl] at h32
          omega
      · exact h
      · exfalso
        rcases hg.left with h0 | h0
        · omega
        · have := hgl (b - 1 - pre.length) (by omega)
          rw [show pre.length + (b - 1 - pre.length) = b - 1 by omega] at this
          omega
    rw [hopen, hb, h1, List.drop_left']
    · have := startsOf_append [⟨t, s, []⟩] mid
      rw [List.singleton_append, m3] at this
      rw [this]
      simp [startsOf, h2]
    · rfl

theorem startsOf_flatten (l : List Piece) : (l.map Piece.start).flatten = (startsOf l).flatten := by
  induction l with
  | nil => rfl
  | cons p l ih => by_cases h : p.start = [] <;> simp_all [startsOf]

theorem stopsOf_flatten (l : List Piece) : (l.map Piece.stop).flatten = (stopsOf l).flatten := by
  induction l with
  | nil => rfl
  | cons p l ih => by_cases h : p.stop = [] <;> simp_all [stopsOf]

theorem plain_stopsOf {l : List Piece} (h : Plain l) : stopsOf l = [] := by
  induction h with
  | nil => rfl
  | cons t _ ih => simpa [stopsOf] using ih

/-- Sequences with an escape at the head and nowhere else can be told apart in what is written. -/
theorem flatten_codes : ∀ {a b : List (List Rune)}, (∀ s ∈ a, ∃ t, s = 0x1B :: t ∧ (0x1B : Rune) ∉ t) →
    (∀ s ∈ b, ∃ t, s = 0x1B :: t ∧ (0x1B : Rune) ∉ t) → a.flatten = b.flatten → a = b
  | [], [], _, _, _ => rfl
  | [], y :: b, _, hb, h => by
    obtain ⟨t, rfl, _⟩ := hb y (by simp)
    simp at h
  | x :: a, [], ha, _, h => by
    obtain ⟨t, rfl, _⟩ := ha x (by simp)
    simp at h
  | x :: a, y :: b, ha, hb, h => by
    obtain ⟨t, rfl, ht⟩ := ha x (by simp)
    obtain ⟨u, rfl, hu⟩ := hb y (by simp)
    have hda : ∀ {c : List (List Rune)}, (∀ s ∈ c, ∃ t, s = 0x1B :: t ∧ (0x1B : Rune) ∉ t) →
        c.flatten = [] ∨ ∃ r, c.flatten = 0x1B :: r := by
      intro c hc
      cases c with
      | nil => left; rfl
      | cons z c =>
        obtain ⟨v, rfl, _⟩ := hc z (by simp)
        right; exact ⟨v ++ c.flatten, by simp⟩
    have ha' := hda (fun s hs => ha s (List.mem_cons_of_mem _ hs))
    have hb' := hda (fun s hs => hb s (List.mem_cons_of_mem _ hs))
    rw [List.flatten_cons, List.flatten_cons, List.cons_append, List.cons_append, List.cons.injEq] at h
    have key : ∀ {t u : List Rune} {p q : List Rune}, (0x1B : Rune) ∉ t → (0x1B : Rune) ∉ u →
        (p = [] ∨ ∃ r, p = 0x1B :: r) → (q = [] ∨ ∃ r, q = 0x1B :: r) → t ++ p = u ++ q → t = u ∧ p = q := by
      intro t
      induction t with
      | nil =>
        intro u p q _ hu hp hq h
        cases u with
        | nil => exact ⟨rfl, h⟩
        | cons y u =>
          rcases hp with rfl | ⟨r, rfl⟩
          · simp at h
          · simp at h
            exact absurd (by simp [h.1]) hu
      | cons x t ih =>
        intro u p q ht hu hp hq h
        cases u with
        | nil =>
          rcases hq with rfl | ⟨r, rfl⟩
          · simp at h
          · simp at h
            exact absurd (by simp [h.1]) ht
        | cons y u =>
          rw [List.cons_append, List.cons_append, List.cons.injEq] at h
          obtain ⟨h1, h2⟩ := ih (fun hm => ht (List.mem_cons_of_mem _ hm))
            (fun hm => hu (List.mem_cons_of_mem _ hm)) hp hq h.2
          exact ⟨by rw [h.1, h1], h2⟩
    obtain ⟨h1, h2⟩ := key ht hu ha' hb' h.2
    rw [h1, flatten_codes (fun s hs => ha s (List.mem_cons_of_mem _ hs))
      (fun s hs => hb s (List.mem_cons_of_mem _ hs)) h2]

end Verif.Model
