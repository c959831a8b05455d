import Verif.Props.Attributes
import Verif.Proofs.Levels

/-! # C47, C48: what is written at the start and at the end of a line, for any text -/

namespace Verif.Props
open Verif.Go Verif.Model Verif.Spec

/-! ## The description -/

/-- **C47**, any text: with no style open after the current renderer (as many stops as starts) nothing is written;
otherwise the start sequences of the group of the current renderer are written, up to it: going back, the group ends
at the first renderer with a level below the number of open styles. There is exactly one group. -/
theorem C47_exact (ops : List AOp) (n : Nat) (hn : n < (pieces [] ops).length) :
    ∃ b e, Group (pieces [] ops) n b e ∧ (∀ b' e', Group (pieces [] ops) n b' e' → b' = b ∧ e' = e) ∧ ∀ out,
      (nexts (build [] ops) (n + 1) (build [] ops).iterator).startOfLine (build [] ops) out =
        if depthAfter (pieces [] ops) n = 0 then out
        else out ++ (startsOf (((pieces [] ops).take (n + 1)).drop b)).flatten := by
  have hb : build [] ops = lv 0 (pieces [] ops) := build_lv ops []
  obtain ⟨b, e, hg, h1, _⟩ := line_spec (pieces [] ops) n hn false
  refine ⟨b, e, hg, fun b' e' hg' => group_unique hg' hg, fun out => ?_⟩
  rw [nexts_iterator, hb, lv_length, if_pos hn, h1, startsOf_flatten]

/-- **C48**, any text: the same with the stop sequences of the whole group, before and after the current renderer. -/
theorem C48_exact (ops : List AOp) (n : Nat) (hn : n < (pieces [] ops).length) :
    ∃ b e, Group (pieces [] ops) n b e ∧ (∀ b' e', Group (pieces [] ops) n b' e' → b' = b ∧ e' = e) ∧ ∀ out,
      (nexts (build [] ops) (n + 1) (build [] ops).iterator).endOfLine (build [] ops) out =
        if depthAfter (pieces [] ops) n = 0 then out
        else out ++ (stopsOf (((pieces [] ops).take e).drop b)).flatten := by
  have hb : build [] ops = lv 0 (pieces [] ops) := build_lv ops []
  obtain ⟨b, e, hg, _, h2⟩ := line_spec (pieces [] ops) n hn false
  refine ⟨b, e, hg, fun b' e' hg' => group_unique hg' hg, fun out => ?_⟩
  rw [nexts_iterator, hb, lv_length, if_pos hn, h2, stopsOf_flatten]

/-- Two nested styles, the inner one closed and opened again: after the fourth piece (`d`, in the second inner style)
the group is made of the pieces 1, 2 and 3. -/
def nestedOps : List AOp := [.push (some (.new [97] [27, 49] [])), .push (some (.new [98] [27, 50] [])),
  .push (some (.new [99] [] [27, 48])), .push (some (.new [100] [27, 51] [])),
  .push (some (.new [101] [] [])), .push (some (.new [102] [] [27, 52])), .push (some (.new [103] [] [27, 53]))]

theorem nestedOps_group : Group (pieces [] nestedOps) 3 1 6 where
  lo := by decide
  hi := by decide
  le := by decide
  inside := by
    intro k h1 h2
    have : k = 1 ∨ k = 2 ∨ k = 3 ∨ k = 4 ∨ k = 5 := by omega
    rcases this with rfl | rfl | rfl | rfl | rfl <;> decide
  left := by decide
  right := by decide

example : (nexts (build [] nestedOps) 4 (build [] nestedOps).iterator).startOfLine (build [] nestedOps) [] =
    [27, 50, 27, 51] ∧
    (nexts (build [] nestedOps) 4 (build [] nestedOps).iterator).endOfLine (build [] nestedOps) [] =
    [27, 48, 27, 52] := by decide

/-! ## When it is right -/

/-- **C47**, exactly when it holds: in a text where no stop is stray, where all start sequences up to the current
renderer are different and each begins with the only escape of it, `StartOfLine` writes the start sequences open after
the current renderer if and only if no style is open there, or only one, opened by a renderer that is the first one or
comes after a renderer without style, and followed by renderers without start or stop. -/
theorem C47_right_iff (ops : List AOp) (n : Nat) (hn : n < (pieces [] ops).length)
    (hs : NoStray (pieces [] ops) (n + 1)) (hd : (startsOf ((pieces [] ops).take (n + 1))).Nodup)
    (he : ∀ s ∈ startsOf ((pieces [] ops).take (n + 1)), ∃ t, s = 0x1B :: t ∧ (0x1B : Rune) ∉ t) (out : List Rune) :
    (nexts (build [] ops) (n + 1) (build [] ops).iterator).startOfLine (build [] ops) out =
        out ++ (openAfter [] ((pieces [] ops).take (n + 1))).flatten ↔
      openAfter [] ((pieces [] ops).take (n + 1)) = [] ∨
      ∃ pre t s mid, (pieces [] ops).take (n + 1) = pre ++ ⟨t, s, []⟩ :: mid ∧ s ≠ [] ∧ Balanced pre ∧
        (pre = [] ∨ ∃ q t', pre = q ++ [⟨t', [], []⟩]) ∧ Plain mid := by
  obtain ⟨b, e, hg, _, hout⟩ := C47_exact ops n hn
  rw [hout out]
  generalize pieces [] ops = l at *
  have hlen := open_length (n := n + 1) (by omega) hs
  by_cases h0 : depthAfter l n = 0
  · have : openAfter [] (l.take (n + 1)) = [] := by
      apply List.eq_nil_of_length_eq_zero
      unfold depthAfter at h0
      omega
    simp [h0, this]
  · have hne : openAfter [] (l.take (n + 1)) ≠ [] := by
      intro e
      rw [e] at hlen
      apply h0
      unfold depthAfter
      simp at hlen
      omega
    rw [if_neg h0, List.append_cancel_left_eq, ← resumed_right hn hg hs hd h0]
    simp only [hne, false_or]
    constructor
    · apply flatten_codes
      · intro s h
        apply he
        rw [← List.take_append_drop b (l.take (n + 1)), startsOf_append]
        exact List.mem_append_right _ h
      · intro s h
        apply he
        rcases open_sub _ _ s h with h | h
        · cases h
        · exact h
    · intro h; rw [h]

/-- The hypotheses hold in the nested text; the answer there is no. -/
example : NoStray (pieces [] nestedOps) 4 ∧ (startsOf ((pieces [] nestedOps).take 4)).Nodup ∧
    (∀ s ∈ startsOf ((pieces [] nestedOps).take 4), ∃ t, s = 0x1B :: t ∧ (0x1B : Rune) ∉ t) := by
  refine ⟨?_, by decide, ?_⟩
  · intro k hk
    have : k = 0 ∨ k = 1 ∨ k = 2 ∨ k = 3 ∨ k = 4 := by omega
    rcases this with rfl | rfl | rfl | rfl | rfl <;> decide
  · intro s h
    have : s = [27, 49] ∨ s = [27, 50] ∨ s = [27, 51] := by
      simpa [pieces, nestedOps, startsOf, Attribute.new] using h
    rcases this with rfl | rfl | rfl
    · exact ⟨[49], rfl, by decide⟩
    · exact ⟨[50], rfl, by decide⟩
    · exact ⟨[51], rfl, by decide⟩

/-! ## Stray stops -/

/-- **C47 fails** after a stray stop (a stop sequence when no style is open, such as a reset written twice): every
later line starts with all the start sequences since the first piece, although no style is open. -/
theorem C47_stray_stop_fails (t₁ t₂ s₁ p₁ p₂ : List Rune) (us : List (List Rune)) (h₁ : s₁ ≠ []) (hp₁ : p₁ ≠ [])
    (hp₂ : p₂ ≠ []) (hu : us ≠ []) :
    let ops : List AOp := .push (some (.new t₁ s₁ p₁)) :: .push (some (.new t₂ [] p₂)) ::
      us.map (fun u => .push (some (.new u [] [])))
    openAfter [] (pieces [] ops) = [] ∧
      (nexts (build [] ops) (us.length + 2) (build [] ops).iterator).startOfLine (build [] ops) [] = s₁ ∧
      (nexts (build [] ops) (us.length + 2) (build [] ops).iterator).endOfLine (build [] ops) [] = p₁ ++ p₂ := by
  intro ops
  have hpc : ∀ (vs : List (List Rune)) (l : List Piece),
      pieces l (vs.map (fun u => AOp.push (some (.new u [] [])))) = l ++ vs.map (fun u => ⟨u, [], []⟩) := by
    intro vs
    induction vs with
    | nil => intro l; simp [pieces]
    | cons v vs ih =>
      intro l
      show pieces (l ++ [⟨v, [], []⟩]) (vs.map _) = _
      rw [ih]
      simp
  have hl : pieces [] ops = ⟨t₁, s₁, p₁⟩ :: ⟨t₂, [], p₂⟩ :: us.map (fun u => ⟨u, [], []⟩) := by
    show pieces _ (us.map _) = _
    rw [hpc]
    rfl
  have hpl : ∀ vs : List (List Rune), Plain (vs.map (fun u => (⟨u, [], []⟩ : Piece))) := by
    intro vs
    induction vs with
    | nil => exact .nil
    | cons v vs ih => exact .cons v ih
  have hst : ∀ k, starts ((pieces [] ops).take (k + 1)) = 1 := by
    intro k
    rw [hl, List.take_succ_cons]
    cases k with
    | zero => simp [starts, h₁]
    | succ k =>
      rw [List.take_succ_cons]
      have := (plain_none ((hpl us).take k)).1
      have h2 := starts_append [⟨t₁, s₁, p₁⟩, ⟨t₂, [], p₂⟩] ((us.map (fun u => (⟨u, [], []⟩ : Piece))).take k)
      rw [this] at h2
      rw [show (⟨t₁, s₁, p₁⟩ : Piece) :: ⟨t₂, [], p₂⟩ :: (us.map (fun u => (⟨u, [], []⟩ : Piece))).take k =
        [⟨t₁, s₁, p₁⟩, ⟨t₂, [], p₂⟩] ++ (us.map (fun u => (⟨u, [], []⟩ : Piece))).take k from rfl, h2]
      simp [starts, h₁]
  have hsp : ∀ k, stops ((pieces [] ops).take (k + 2)) = 2 := by
    intro k
    rw [hl, List.take_succ_cons, List.take_succ_cons]
    have := (plain_none ((hpl us).take k)).2.1
    have h2 := stops_append [⟨t₁, s₁, p₁⟩, ⟨t₂, [], p₂⟩] ((us.map (fun u => (⟨u, [], []⟩ : Piece))).take k)
    rw [this] at h2
    rw [show (⟨t₁, s₁, p₁⟩ : Piece) :: ⟨t₂, [], p₂⟩ :: (us.map (fun u => (⟨u, [], []⟩ : Piece))).take k =
      [⟨t₁, s₁, p₁⟩, ⟨t₂, [], p₂⟩] ++ (us.map (fun u => (⟨u, [], []⟩ : Piece))).take k from rfl, h2]
    simp [stops, hp₁, hp₂]
  have hlen : (pieces [] ops).length = us.length + 2 := by rw [hl]; simp
  have hun : 0 < us.length := List.length_pos_iff.mpr hu
  have hn : us.length + 1 < (pieces [] ops).length := by omega
  have hdep : depthAfter (pieces [] ops) (us.length + 1) = -1 := by
    unfold depthAfter
    rw [hst, hsp]; rfl
  have hgrp : Group (pieces [] ops) (us.length + 1) 0 (us.length + 2) := by
    refine ⟨by omega, by omega, by omega, ?_, Or.inl rfl, Or.inl hlen.symm⟩
    intro k _ _
    rw [hdep]
    unfold levelAt
    rw [hst]
    have : stops ((pieces [] ops).take k) ≤ 2 := by
      have h1 := stops_split (pieces [] ops) (show k ≤ k + 2 by omega)
      rw [hsp] at h1
      omega
    omega
  obtain ⟨b, e, hg, hu1, h1⟩ := C47_exact ops (us.length + 1) hn
  obtain ⟨b', e', hg', hu2, h2⟩ := C48_exact ops (us.length + 1) hn
  obtain ⟨rfl, rfl⟩ := hu1 _ _ hgrp
  obtain ⟨rfl, rfl⟩ := hu2 _ _ hgrp
  refine ⟨?_, ?_, ?_⟩
  · rw [hl]
    simp [openAfter, h₁, hp₁, hp₂, (hpl us).openAfter]
  · rw [h1 [], hdep, hl]
    have := (plain_none ((hpl us).take us.length)).2.2
    rw [if_neg (by decide), List.drop_zero, List.take_succ_cons, List.take_succ_cons]
    unfold startsOf at this ⊢
    simp only [List.map_cons, List.filter_cons, this]
    simp [h₁]
  · rw [h2 [], hdep, hl]
    have := plain_stopsOf ((hpl us).take us.length)
    rw [if_neg (by decide), List.drop_zero, List.take_succ_cons, List.take_succ_cons]
    unfold stopsOf at this ⊢
    simp only [List.map_cons, List.filter_cons, this]
    simp [hp₁, hp₂]

end Verif.Props
