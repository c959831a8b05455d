import Verif.Proofs.LBLast
import Verif.Proofs.LBText

/-! # The sums of the nodes of words -/

namespace Verif.Proofs.LB
open Verif.Go Verif.Model Verif.Model.LB Verif.Spec Verif.Spec.Ansi Verif.Spec.LB Verif.Props

variable {F : Type} [Arith F]

set_option linter.unusedSectionVars false

theorem start_box (N : List (Node F)) (k i : Nat) (x : Node F) (h : N[i]? = some x) (hx : x.kind = .box) :
    findStartNode N k ≤ k + i := by
  induction N generalizing k i with
  | nil => simp at h
  | cons y ys ih =>
    unfold findStartNode
    cases i with
    | zero =>
      simp at h
      subst h
      rw [hx]
      simp
    | succ i =>
      have h' : ys[i]? = some x := by simpa using h
      cases hk : y.kind with
      | box => simp
      | penalty =>
        simp only
        split
        · omega
        · have := ih k i h'; omega
      | glue =>
        simp only
        have := ih (k + 1) i h'; omega

theorem sum_rest {N u w : List (Node F)} {z : Node F} (hN : N = u ++ w ++ [z]) (hs : findStartNode N 0 ≤ u.length) :
    sumAt N (N.length - 1) = w.foldl sumNode (sumAt N u.length) := by
  unfold sumAt
  have e1 : N.take (N.length - 1) = u ++ w := by
    rw [hN, List.length_append, List.length_singleton, Nat.add_sub_cancel, List.take_left]
  have e2 : N.take u.length = u := by rw [hN]; simp
  rw [e1, e2, List.drop_append_of_le_length hs, List.foldl_append]

/-- Marks and hyphens come after a part. -/
def Led (a b : Sym) : Prop := b = .mark ∨ b = .hard → ∃ t, a = .part t

theorem led_none {z : Sym} {r : List Sym} (hz : z ≠ .mark ∧ z ≠ .hard) (hc : (z :: r).IsChain Led) (hp : ∀ t, .part t ∉ z :: r) :
    ∀ x ∈ z :: r, x ≠ .mark ∧ x ≠ .hard := by
  induction r generalizing z with
  | nil =>
    intro x hx
    rw [List.mem_singleton.mp hx]
    exact hz
  | cons y r ih =>
    obtain ⟨h1, h2⟩ := List.isChain_cons_cons.mp hc
    have hy : y ≠ .mark ∧ y ≠ .hard := by
      constructor
      · intro e
        obtain ⟨t, ht⟩ := h1 (Or.inl e)
        exact hp t (by simp [ht])
      · intro e
        obtain ⟨t, ht⟩ := h1 (Or.inr e)
        exact hp t (by simp [ht])
    intro x hx
    rcases List.mem_cons.mp hx with rfl | hx
    · exact hz
    · exact ih hy h2 (fun t ht => hp t (List.mem_cons_of_mem _ ht)) x hx

/-- Symbols without parts that end a paragraph start with a mark or a hyphen. -/
theorem led_first {z : Sym} {r : List Sym} (hc : (z :: r).IsChain Led) (hp : ∀ t, .part t ∉ z :: r)
    (hl : ∀ x ∈ (z :: r).getLast?, (∃ t, x = .part t) ∨ x = .mark ∨ x = .hard) : z = .mark ∨ z = .hard := by
  by_contra hz
  rw [not_or] at hz
  obtain ⟨x, hx⟩ : ∃ x, (z :: r).getLast? = some x := ⟨_, List.getLast?_eq_some_getLast (by simp)⟩
  have hm := List.mem_of_getLast? hx
  have h1 := led_none hz hc hp x hm
  rcases hl x hx with ⟨t, rfl⟩ | h | h
  · exact hp t hm
  · exact h1.1 h
  · exact h1.2 h

/-- The nodes at the end of a paragraph. -/
def endTags : List (Node F × Option Sym) := [(newGlue zero infinity zero, none), (newPenalty zero minusInfinity true, none)]

variable [Laws F] [MoreLaws F]

theorem add_ints (a b : Int) (ha : |a| ≤ 100000) (hb : |b| ≤ 100000) :
    Arith.add (Arith.ofInt a : F) (Arith.ofInt b) = Arith.ofInt (a + b) :=
  Laws.add_int a b (small a (by omega)) (small b (by omega)) (small _ (by
    rw [abs_le] at *
    omega))

theorem glue_shrink {l : LineBreaker F} {x : Node F × Option Sym} (h : NodeOf l x) (hk : x.1.kind = .glue) :
    x.1.sums.shrink = zero := by
  unfold NodeOf at h
  simp only [hk] at h
  rcases h with ⟨_, h⟩ | ⟨_, _, _, h⟩ <;> rw [h]

theorem fold_keep {l : LineBreaker F} (V : List (Node F × Option Sym)) (hV : ∀ x ∈ V, NodeOf l x) (s : Sums F)
    (hk : s.shrink = Arith.ofInt 0) (hw : Arith.add s.width (Arith.ofInt 0) = s.width) :
    ((V.map Prod.fst).foldl sumNode s).shrink = Arith.ofInt 0 ∧
      Arith.add ((V.map Prod.fst).foldl sumNode s).width (Arith.ofInt 0) = ((V.map Prod.fst).foldl sumNode s).width := by
  induction V generalizing s with
  | nil => exact ⟨hk, hw⟩
  | cons x V ih =>
    rw [List.map_cons, List.foldl_cons]
    refine ih (fun y hy => hV y (by simp [hy])) _ ?_ ?_
    · unfold sumNode
      cases h : x.1.kind with
      | box => exact hk
      | penalty => exact hk
      | glue =>
        show Arith.add s.shrink x.1.sums.shrink = _
        rw [hk, glue_shrink (hV x (by simp)) h]
        exact add_ints 0 0 (by decide) (by decide)
    · unfold sumNode
      cases h : x.1.kind with
      | box => exact MoreLaws.add_keep _ _ hw
      | penalty => exact hw
      | glue => exact MoreLaws.add_keep _ _ hw

theorem fold_lift {e : Bool} (V : List (Node F × Option Sym)) {b c : Bool} (h : Lift b V c) (s : Sums F)
    (hs : s.stretch = Arith.ofInt (lifted b - lifted e)) :
    ((V.map Prod.fst).foldl sumNode s).stretch = Arith.ofInt (lifted c - lifted e) := by
  induction V generalizing s b with
  | nil =>
    cases h
    exact hs
  | cons x V ih =>
    obtain ⟨x, tag⟩ := x
    obtain ⟨_, b', h1, h2⟩ := h
    rw [List.map_cons, List.foldl_cons]
    refine ih h2 _ ?_
    unfold sumNode
    rcases h1 with ⟨hk, h1⟩ | ⟨hk, rfl⟩
    · simp only [hk]
      show Arith.add s.stretch x.sums.stretch = _
      have := lifted_small b
      have := lifted_small b'
      have := lifted_small e
      rw [hs, h1, add_ints _ _ (by rw [abs_le]; omega) (by rw [abs_le]; omega)]
      congr 1
      omega
    · cases h : x.kind with
      | box => exact hs
      | penalty => exact hs
      | glue => exact absurd h hk

theorem fold_still {l : LineBreaker F} (V : List (Node F × Option Sym)) (hV : ∀ x ∈ V, NodeOf l x) (hn : symsOf V = [])
    (s : Sums F) (hw : Arith.add s.width (Arith.ofInt 0) = s.width) : ((V.map Prod.fst).foldl sumNode s).width = s.width := by
  induction V generalizing s with
  | nil => rfl
  | cons x V ih =>
    obtain ⟨x, tag⟩ := x
    have ht : tag = none := by
      cases tag with
      | none => rfl
      | some t => simp [symsOf] at hn
    subst ht
    have hx := hV (x, none) (by simp)
    have e : (sumNode s x).width = s.width := by
      unfold NodeOf at hx
      unfold sumNode
      cases h : x.kind with
      | box => simp only [h] at hx; cases hx.1
      | penalty => rfl
      | glue =>
        simp only [h] at hx
        rcases hx with ⟨h, _⟩ | ⟨_, _, _, h⟩
        · cases h
        · show Arith.add s.width x.sums.width = _
          rw [h]; exact hw
    rw [List.map_cons, List.foldl_cons, ih (fun y hy => hV y (by simp [hy])) (by simpa [symsOf] using hn) _ (by rw [e]; exact hw), e]

theorem end_of {l : LineBreaker F} : ∀ x ∈ (endTags : List (Node F × Option Sym)), NodeOf l x := by
  intro x hx
  simp only [endTags, List.mem_cons, List.not_mem_nil, or_false] at hx
  rcases hx with rfl | rfl
  · exact Or.inr ⟨rfl, _, Or.inr (Or.inr rfl), rfl⟩
  · exact ⟨by simp, by simp, Or.inr (Or.inr rfl)⟩

/-- Nodes of words, with the end of the paragraph. -/
theorem tally_of {l : LineBreaker F} {T0 : List (Node F × Option Sym)} (hT : ∀ x ∈ T0, NodeOf l x) (hchain : T0.IsChain NotAfterBox)
    (hun : ∀ x ∈ T0, x.1.isForcedBreak = false) (hends : Ends true T0) (hlift : Lift false T0 false)
    (hc : (symsOf T0).IsChain Led) (hl : ∀ x ∈ (symsOf T0).getLast?, (∃ t, x = .part t) ∨ x = .mark ∨ x = .hard)
    (hbox : ∃ x ∈ T0, x.1.kind = .box) : ∃ e, Tally ((T0 ++ endTags).map Prod.fst) e := by
  obtain ⟨N, eN⟩ : ∃ N : List (Node F), N = (T0 ++ endTags).map Prod.fst := ⟨_, rfl⟩
  rw [← eN]
  have hlen : N.length = T0.length + 2 := by rw [eN]; simp [endTags]
  have hTE : ∀ x ∈ T0 ++ endTags, NodeOf l x := by
    intro x hx
    rcases List.mem_append.mp hx with h | h
    · exact hT x h
    · exact end_of x h
  obtain ⟨s, es⟩ : ∃ s, s = findStartNode N 0 := ⟨_, rfl⟩
  have hsl : s ≤ T0.length := by
    obtain ⟨x, hx, hk⟩ := hbox
    obtain ⟨i, hi, rfl⟩ := List.getElem_of_mem hx
    have := start_box N 0 i T0[i].1 (by rw [eN, List.getElem?_map, List.getElem?_append_left hi, List.getElem?_eq_getElem hi]; rfl) hk
    omega
  obtain ⟨e, l1, l2⟩ := Lift.split (T := T0.take s) (T' := T0.drop s) (by rw [List.take_append_drop]; exact hlift)
  have z1 : (Sums.zero : Sums F).stretch = Arith.ofInt (lifted e - lifted e) := by rw [Int.sub_self]; rfl
  have keep : ∀ i, (sumAt N i).shrink = Arith.ofInt 0 ∧ Arith.add (sumAt N i).width (Arith.ofInt 0) = (sumAt N i).width := by
    intro i
    unfold sumAt
    rw [eN, ← List.map_take, ← List.map_drop]
    exact fold_keep _ (fun x hx => hTE x (List.mem_of_mem_take (List.mem_of_mem_drop hx))) _ rfl
      (add_ints 0 0 (by decide) (by decide))
  refine ⟨e, ⟨?_, ?_, fun i => (keep i).1, fun i => (keep i).2, ?_, ?_⟩⟩
  · intro i h1 h2
    rw [← es] at h1
    obtain ⟨c, c1, _⟩ := Lift.split (T := (T0.drop s).take (i - s)) (T' := (T0.drop s).drop (i - s))
      (by rw [List.take_append_drop]; exact l2)
    refine ⟨c, ?_⟩
    have := fold_lift _ c1 Sums.zero z1
    rw [← this]
    unfold sumAt
    rw [← es, eN, ← List.map_take, ← List.map_drop, List.take_append_of_le_length (by omega), List.drop_take]
  · have := fold_lift _ l2 Sums.zero z1
    have e1 : sumAt N (N.length - 1) = sumNode (((T0.drop s).map Prod.fst).foldl sumNode Sums.zero) (newGlue zero infinity zero) := by
      unfold sumAt
      rw [← es, hlen, eN, ← List.map_take, ← List.map_drop]
      have : (T0 ++ endTags).take (T0.length + 2 - 1) = T0 ++ [(newGlue zero infinity zero, none)] := by
        simp [List.take_append, endTags]
      rw [this, List.drop_append_of_le_length hsl, List.map_append, List.foldl_append]
      rfl
    rw [e1]
    show Arith.add _ (infinity : F) = _
    rw [this]
    have := lifted_small e
    have h0 : lifted false = 0 := rfl
    unfold infinity
    rw [add_ints _ _ (by rw [abs_le]; omega) (by decide)]
    congr 1
    omega
  · intro u x v hN hv
    have hN' := hN
    rw [eN] at hN'
    obtain ⟨U, W, eU, e1, e2⟩ := List.map_eq_append_iff.mp hN'
    obtain ⟨y, V, eV, e3, e4⟩ := List.map_eq_cons_iff.mp e2
    subst eV
    rcases List.append_eq_append_iff.mp eU with ⟨R, h1, h2⟩ | ⟨R, h1, h2⟩
    · rw [← e3]
      cases R with
      | nil =>
        simp only [List.nil_append, endTags, List.cons.injEq] at h2
        rw [← h2.1, glue_free]
      | cons r R =>
        exfalso
        simp only [endTags, List.cons_append, List.cons.injEq] at h2
        cases R with
        | nil =>
          simp at h2
          exact hv (by rw [← e4, h2.2.2]; rfl)
        | cons r' R => simp at h2
    · rw [← e3]
      cases R with
      | nil =>
        simp only [List.nil_append, endTags, List.cons.injEq] at h2
        rw [h2.1, glue_free]
      | cons r R =>
        simp only [List.cons_append, List.cons.injEq] at h2
        exact hun y (by rw [h1, h2.1]; simp)
  · intro u x v hN hv hlegal hs hnb
    have hN' := hN
    rw [eN] at hN'
    obtain ⟨U, W, eU, e1, e2⟩ := List.map_eq_append_iff.mp hN'
    obtain ⟨y, V, eV, e3, e4⟩ := List.map_eq_cons_iff.mp e2
    obtain ⟨y, tag⟩ := y
    subst eV
    simp only at e3
    subst e3
    have last : ∀ w, N = u ++ (y :: w) ++ [newPenalty zero minusInfinity true] →
        sumAt N (N.length - 1) = (y :: w).foldl sumNode (sumAt N u.length) := fun w h => sum_rest h hs
    have hfin : y = newGlue zero infinity zero → V = [(newPenalty zero minusInfinity true, none)] →
        (sumAt N (N.length - 1)).width = (sumAt N u.length).width ∧ (y.kind = .penalty → y.sums.width = zero) := by
      intro h1 h2
      refine ⟨?_, fun hk => by rw [h1] at hk; cases hk⟩
      rw [last [] (by rw [hN, ← e4, h2]; simp), h1]
      exact fold_still (l := l) [(newGlue zero infinity zero, none)] (fun x hx => by
        refine end_of x ?_
        simp at hx
        rw [hx]; simp [endTags]) rfl _ (keep _).2
    rcases List.append_eq_append_iff.mp eU with ⟨R, h1, h2⟩ | ⟨R, h1, h2⟩
    · cases R with
      | nil =>
        simp only [List.nil_append, endTags, List.cons.injEq, Prod.mk.injEq] at h2
        exact hfin h2.1.1.symm h2.2.symm
      | cons r R =>
        exfalso
        simp only [endTags, List.cons_append, List.cons.injEq] at h2
        cases R with
        | nil =>
          simp at h2
          exact hv (by rw [← e4, h2.2.2]; rfl)
        | cons r' R => simp at h2
    · cases R with
      | nil =>
        simp only [List.nil_append, endTags, List.cons.injEq, Prod.mk.injEq] at h2
        exact hfin h2.1.1 h2.2
      | cons r V' =>
        simp only [List.cons_append, List.cons.injEq] at h2
        obtain ⟨h2, h3⟩ := h2
        subst h2
        have hy := hT (y, tag) (by rw [h1]; simp)
        have hVT : ∀ z ∈ V', NodeOf l z := fun z hz => hT z (by rw [h1]; simp [hz])
        have hVb : ∀ z ∈ V', z.1.kind ≠ .box := fun z hz => hnb z.1 (by
          rw [← e4, h3]; exact List.mem_map_of_mem (by simp [hz]))
        have hss : symsOf T0 = symsOf U ++ (tag.toList ++ symsOf V') := by
          rw [h1, symsOf_append, symsOf_cons]
        have hp : ∀ t, .part t ∉ symsOf V' := by
          intro t ht
          obtain ⟨z, hz, hz2⟩ := List.mem_filterMap.mp ht
          have := hVT z hz
          unfold NodeOf at this
          cases hk : z.1.kind with
          | box => exact hVb z hz hk
          | glue =>
            simp only [hk, hz2] at this
            rcases this with ⟨h, _⟩ | ⟨h, _⟩ <;> cases h
          | penalty =>
            simp only [hk] at this
            exact this.1 t hz2
        rw [hss] at hc hl
        have hc2 := (List.isChain_append.mp hc).2.1
        have hl2 : ∀ x ∈ (tag.toList ++ symsOf V').getLast?, (∃ t, x = .part t) ∨ x = .mark ∨ x = .hard := by
          intro x hx
          refine hl x ?_
          rw [List.getLast?_append_of_ne_nil _ (by intro h; rw [h] at hx; cases hx)]
          exact hx
        have hc3 := (List.isChain_append.mp hc2).2.1
        have hl3 : ∀ x ∈ (symsOf V').getLast?, (∃ t, x = .part t) ∨ x = .mark ∨ x = .hard := by
          intro x hx
          refine hl2 x ?_
          rw [List.getLast?_append_of_ne_nil _ (by intro h; rw [h] at hx; cases hx)]
          exact hx
        cases tag with
        | none =>
          obtain ⟨r, hr⟩ := hends.at h1 (by rw [e1]; exact hlegal)
          rw [hr] at hc3 hp hl3
          rcases led_first hc3 hp hl3 with h | h <;> cases h
        | some g =>
          have hgp : ∀ t, g ≠ .part t := by
            rintro t rfl
            unfold NodeOf at hy
            rcases hlegal with ⟨hk, _⟩ | ⟨hk, _⟩
            · simp only [hk] at hy
              rcases hy with ⟨h, _⟩ | ⟨h, _⟩ <;> cases h
            · simp only [hk] at hy
              exact hy.1 t rfl
          have hnone : symsOf V' = [] := by
            cases hv : symsOf V' with
            | nil => rfl
            | cons z r =>
              exfalso
              rw [hv] at hc2 hc3 hp hl3
              obtain ⟨t, ht⟩ := (List.isChain_cons_cons.mp hc2).1 (led_first hc3 hp hl3)
              exact hgp t ht
          rw [hnone] at hl2
          have hmk : g = .mark ∨ g = .hard := (hl2 g (by simp)).resolve_left fun ⟨t, ht⟩ => hgp t ht
          rw [h1] at hlift
          obtain ⟨_, _, q⟩ := hlift.split
          obtain ⟨_, qk, qw⟩ := q.1 (by rcases hmk with rfl | rfl <;> simp)
          refine ⟨?_, fun _ => qw⟩
          rw [last ((V' ++ [(newGlue zero infinity zero, none)]).map Prod.fst) (by
            rw [hN, ← e4, h3]; simp [endTags]), List.foldl_cons]
          have e5 : sumNode (sumAt N u.length) y = sumAt N u.length := by
            unfold sumNode; simp only [qk]
          rw [e5]
          refine fold_still (l := l) _ ?_ ?_ _ (keep _).2
          · intro z hz
            rcases List.mem_append.mp hz with h | h
            · exact hVT z h
            · refine end_of z ?_
              simp at h
              rw [h]; simp [endTags]
          · rw [symsOf_append, hnone]; rfl

theorem part_infix {g : List Rune} {L : List Sym} {t : List Rune} (h : .part t ∈ L) : t <:+: lineText g L := by
  induction L with
  | nil => cases h
  | cons x L ih =>
    rcases List.mem_cons.mp h with rfl | h
    · exact ⟨[], lineText g L, by simp [lineText]⟩
    · have := ih h
      cases x with
      | part u => exact this.trans (List.suffix_append _ _).isInfix
      | gap => exact this.trans (List.suffix_append _ _).isInfix
      | soft => exact this
      | hard => exact this
      | mark => exact this

omit [MoreLaws F] in
/-- With a box on the last line, there is a part on the last line. -/
theorem last_line {env : Env} {l : LineBreaker F} {sp : Splitter} (hd : Describes env l sp)
    (hz : Arith.toInt (l.downScale (Arith.ofInt 0 : F)) ≤ 0)
    {T : List (Node F × Option Sym)} (hT : ∀ x ∈ T, NodeOf l x) (hc : T.IsChain NotAfterBox)
    (hfree : ∀ U x V, T = U ++ x :: V → V ≠ [] → x.1.isForcedBreak = true → x.2 = some .soft)
    (hforced : ∃ x, T.getLast? = some x ∧ x.1.isForcedBreak = true) (hwhole : Entire (symsOf T))
    {ideal : F} {p : Point F} {pts : List (Point F)}
    (hpath : Path (Step l.toOptions (T.map Prod.fst) ideal) p pts) (hne : pts ≠ [])
    (hpos : ∀ q ∈ pts.getLast?, q.position + 1 = T.length) (hzero : ∀ q ∈ pts, q.ratio = zero)
    {ls : List (F × List (Node F))} (h : linesLoop (T.map Prod.fst) pts p.position = .ok ls) {it : AIter}
    {out : List (List Rune)} (ho : renderLoop l.toOptions [] ls it = .ok out)
    (hbox : ∀ r a b, p :: pts = r ++ [a, b] → BoxFrom (T.map Prod.fst) a.position) :
    ∃ t line, .part t ∈ symsOf T ∧ out.getLast? = some line ∧ t <:+: line := by
  have h0 : AllPlain ([] : AState) := fun a h => by cases h
  induction hpath generalizing ls it out with
  | nil => exact absurd rfl hne
  | @cons p q rest hs hrest ih =>
    obtain ⟨u, x, v, h1, h2, _, h3, _, h4⟩ := hs
    have hqp : q.position = u.length := by rw [h4]; rfl
    obtain ⟨U, tag, V, e, hU, hb, hg, hp⟩ := legal_node hd hz hT hc hfree hforced hwhole h1 h2
    simp only [linesLoop] at h
    cases hsk : skipNodes p.position (T.map Prod.fst) with
    | error e => rw [hsk] at h; cases h
    | ok j =>
      simp only [hsk, ok_bind] at h
      cases hsl : slice (T.map Prod.fst) j ((q.position : Int) + 1) with
      | error e => rw [hsl] at h; cases h
      | ok ns =>
        simp only [hsl, ok_bind] at h
        cases hl : linesLoop (T.map Prod.fst) rest q.position with
        | error e => rw [hl] at h; cases h
        | ok ls' =>
          simp only [hl, ok_bind, pure_eq_ok] at h
          cases h
          simp only [renderLoop, h0.startOfLine, hzero q (by simp)] at ho
          cases hn : nodesLoop l.toOptions [] zero ns [] it with
          | error e => rw [hn] at ho; cases ho
          | ok r =>
            simp only [hn, ok_bind, h0.endOfLine] at ho
            cases hr : renderLoop l.toOptions [] ls' r.2 with
            | error e => rw [hr] at ho; cases ho
            | ok out' =>
              simp only [hr, ok_bind, pure_eq_ok] at ho
              cases ho
              rw [hqp, ← hU] at hsl
              obtain ⟨D, L, hh, g1, g2, g5, g3, g4⟩ := line_fill hd hz hT hc hfree hforced hwhole e hb hg hp (by rw [hU]; exact h3) hsk hsl hn
              cases hrest with
              | nil =>
                have hlast := hpos q (by simp)
                have hV : V = [] := by
                  have := congrArg List.length e
                  simp only [List.length_append, List.length_cons] at this
                  exact List.eq_nil_of_length_eq_zero (by omega)
                simp only [linesLoop] at hl
                cases hl
                simp only [renderLoop] at hr
                cases hr
                obtain ⟨k, y, k1, k2, k3⟩ := hbox [] p q rfl
                rw [List.getElem?_map] at k2
                cases hk : T[k]? with
                | none => rw [hk] at k2; cases k2
                | some z =>
                  rw [hk] at k2
                  simp only [Option.map_some, Option.some.injEq] at k2
                  have hzT : z ∈ T := List.mem_of_getElem? hk
                  have hzp : z ∈ T.drop p.position := by
                    refine List.mem_of_getElem? (i := k - p.position) ?_
                    rw [List.getElem?_drop, show p.position + (k - p.position) = k by omega, hk]
                  have hzn := hT z hzT
                  unfold NodeOf at hzn
                  rw [k2, k3] at hzn
                  have hm : Sym.part y.value ∈ symsOf (T.drop p.position) := List.mem_filterMap.mpr ⟨z, hzp, hzn.1⟩
                  have hmT : Sym.part y.value ∈ symsOf T := List.mem_filterMap.mpr ⟨z, hzT, hzn.1⟩
                  rw [g1, hV] at hm
                  have hL : Sym.part y.value ∈ L := by
                    rcases List.mem_append.mp hm with hm | hm
                    · exact (List.mem_append.mp hm).resolve_left (g2 _)
                    · exfalso
                      have hx := hT (x, tag) (by rw [e]; simp)
                      unfold NodeOf at hx
                      simp only [symsOf, List.filterMap_nil, List.append_nil, Option.mem_toList] at hm
                      have ht : tag = some (.part y.value) := by simpa using hm
                      subst ht
                      cases hk : x.kind with
                      | box => exact hb hk
                      | glue =>
                        simp only [hk] at hx
                        rcases hx with ⟨h, _⟩ | ⟨h, _⟩ <;> cases h
                      | penalty =>
                        simp only [hk] at hx
                        exact hx.1 _ rfl
                  refine ⟨y.value, _, hmT, rfl, ?_⟩
                  rw [g4]
                  exact (part_infix hL).trans (List.prefix_append _ _).isInfix
              | @cons _ q' rest' hs' hrest' =>
                obtain ⟨t, line, t1, t2, t3⟩ := ih (by simp) (fun y hy => hpos y (by simpa using hy)) (fun y hy => hzero y (by simp [hy])) hl hr
                  (fun r a b hab => hbox (p :: r) a b (by rw [hab]; rfl))
                refine ⟨t, line, t1, ?_, t3⟩
                rw [List.getLast?_cons_of_ne_nil (by intro h; rw [h] at t2; cases t2)]
                exact t2

end Verif.Proofs.LB
