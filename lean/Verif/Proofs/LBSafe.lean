import Verif.Proofs.LBReach
import Verif.Proofs.LBFills

/-! # No panic, whatever the numbers

Break points that follow each other without text in between have the same totals. The first one stays in the list as long
as the second one and is before it, so that no line starts at the second one. -/

namespace Verif.Proofs.LB
open Verif.Go Verif.Model Verif.Model.LB Verif.Spec Verif.Spec.Ansi Verif.Spec.LB Verif.Props

variable {F : Type} [Arith F]

set_option linter.unusedSectionVars false

/-! ## Totals -/

/-- The totals of a break point. -/
def totAt (N : List (Node F)) (i : Nat) : Sums F := sumFromNode N (sumAt N i) i

theorem sumFrom_first {y : Node F} (h : y.isForcedBreak = false) (w : List (Node F)) (s : Sums F) :
    sumFromLoop true (y :: w) s = sumFromLoop false (y :: w) s := by
  unfold sumFromLoop
  simp [h]

theorem totals_same (N : List (Node F)) (d p : Nat) (hs : findStartNode N 0 ≤ p) (hq : p + d < N.length)
    (hn : ∀ k x, p ≤ k → k ≤ p + d → N[k]? = some x → ¬ Solid x) : totAt N p = totAt N (p + d) := by
  induction d generalizing p with
  | zero => rfl
  | succ d ih =>
    have hp : p < N.length := by omega
    have hp' : p + 1 < N.length := by omega
    obtain ⟨x, hx⟩ : ∃ x, N[p]? = some x := ⟨N[p], by simp [hp]⟩
    obtain ⟨y, hy⟩ : ∃ y, N[p + 1]? = some y := ⟨N[p + 1], by simp [hp']⟩
    have h1 := hn p x (by omega) (by omega) hx
    have h2 := hn (p + 1) y (by omega) (by omega) hy
    have e1 : N.drop p = x :: N.drop (p + 1) := by
      rw [List.drop_eq_getElem_cons hp]
      rw [List.getElem?_eq_getElem hp] at hx
      cases hx
      rfl
    have e2 : N.drop (p + 1) = y :: N.drop (p + 2) := by
      rw [List.drop_eq_getElem_cons hp']
      rw [List.getElem?_eq_getElem hp'] at hy
      cases hy
      rfl
    have hN : N = N.take p ++ x :: N.drop (p + 1) := by rw [← e1, List.take_append_drop]
    have hl : (N.take p).length = p := by simp; omega
    have hs' := sumAt_succ N (N.take p) (N.drop (p + 1)) x hN (by rw [hl]; exact hs)
    rw [hl] at hs'
    have hstep : totAt N p = totAt N (p + 1) := by
      have hy' : y.isForcedBreak = false := by
        cases e : y.isForcedBreak with
        | false => rfl
        | true => exact absurd (Or.inr e) h2
      unfold totAt sumFromNode
      rw [hs', e1, e2]
      rw [sumFrom_first (y := y) hy']
      conv => lhs; unfold sumFromLoop
      unfold sumNode
      cases hk : x.kind with
      | box => exact absurd (Or.inl hk) h1
      | glue => simp
      | penalty =>
        have : x.isForcedBreak = false := by
          cases e : x.isForcedBreak with
          | false => rfl
          | true => exact absurd (Or.inr e) h1
        simp [this]
    rw [hstep, show p + (d + 1) = p + 1 + d by omega]
    exact ih (p + 1) (by omega) (by omega) (fun k z ha hb => hn k z (by omega) (by omega))

theorem gd_or_same (N : List (Node F)) {p q : Nat} (hs : findStartNode N 0 ≤ p) (hpq : p ≤ q) (hq : q < N.length) :
    Gd N p q ∨ totAt N p = totAt N q := by
  by_cases h : ∃ k x, p ≤ k ∧ k ≤ q ∧ N[k]? = some x ∧ Solid x
  · exact Or.inl ⟨hq, h⟩
  · right
    have := totals_same N (q - p) p hs (by omega) (fun k x h1 h2 h3 h4 => h ⟨k, x, h1, by omega, h3, h4⟩)
    rwa [show p + (q - p) = q by omega] at this

/-! ## Active break points -/

/-- What is known of a break point before the node `i`. -/
structure Known' (N : List (Node F)) (i : Nat) (b : BreakPoint F) : Prop where
  links : b.previous.IsChain (fun q p => Gd N p.position q.position)
  root : ∀ p ∈ (b.toPoint :: b.previous).getLast?, p.position = 0
  ratio : ∀ p ∈ b.toPoint :: b.previous, p.ratio = zero
  demerits : b.totalDemerits = zero
  before : b.position < N.length ∧ (b.previous ≠ [] → b.position < i)
  totals : b.previous ≠ [] → findStartNode N 0 ≤ b.position ∧ b.totals = totAt N b.position

/-- The line to the break point has nodes. -/
def LinkGood (N : List (Node F)) (b : BreakPoint F) : Prop := ∀ p ∈ b.previous.head?, Gd N p.position b.position

/-- Break points, after ones with these totals. -/
def SoundL (N : List (Node F)) (i : Nat) : List (Sums F) → List (BreakPoint F) → Prop
  | _, [] => True
  | seen, b :: bs => Known' N i b ∧ (LinkGood N b ∨ b.totals ∈ seen) ∧ SoundL N i (b.totals :: seen) bs

theorem SoundL.known {N : List (Node F)} {i : Nat} {seen : List (Sums F)} {bs : List (BreakPoint F)} (h : SoundL N i seen bs) :
    ∀ b ∈ bs, Known' N i b := by
  induction bs generalizing seen with
  | nil => intro b hb; cases hb
  | cons a bs ih =>
    intro b hb
    rcases List.mem_cons.mp hb with rfl | hb
    · exact h.1
    · exact ih h.2.2 b hb

theorem Known'.later {N : List (Node F)} {i j : Nat} {b : BreakPoint F} (h : Known' N i b) (hij : i ≤ j) : Known' N j b :=
  ⟨h.links, h.root, h.ratio, h.demerits, ⟨h.before.1, fun hp => lt_of_lt_of_le (h.before.2 hp) hij⟩, h.totals⟩

theorem SoundL.later {N : List (Node F)} {i j : Nat} {seen : List (Sums F)} {bs : List (BreakPoint F)} (h : SoundL N i seen bs)
    (hij : i ≤ j) : SoundL N j seen bs := by
  induction bs generalizing seen with
  | nil => exact True.intro
  | cons a bs ih => exact ⟨h.1.later hij, h.2.1, ih h.2.2⟩

theorem SoundL.filter {N : List (Node F)} {i : Nat} {seen seen' : List (Sums F)} {bs : List (BreakPoint F)} (h : SoundL N i seen bs)
    (K : Sums F → Bool) (hk : ∀ t ∈ seen, K t = true → t ∈ seen') : SoundL N i seen' (bs.filter (fun b => K b.totals)) := by
  induction bs generalizing seen seen' with
  | nil => exact True.intro
  | cons a bs ih =>
    rw [List.filter_cons]
    by_cases hK : K a.totals = true
    · rw [if_pos hK]
      refine ⟨h.1, h.2.1.imp id (fun hs => hk _ hs hK), ih h.2.2 ?_⟩
      intro t ht hKt
      rcases List.mem_cons.mp ht with rfl | ht
      · simp
      · exact List.mem_cons_of_mem _ (hk t ht hKt)
    · rw [if_neg hK]
      refine ih h.2.2 ?_
      intro t ht hKt
      rcases List.mem_cons.mp ht with rfl | ht
      · exact absurd hKt hK
      · exact hk t ht hKt

theorem SoundL.append {N : List (Node F)} {i : Nat} {seen : List (Sums F)} {bs cs : List (BreakPoint F)} (h : SoundL N i seen bs)
    (hc : ∀ c ∈ cs, Known' N i c ∧ (LinkGood N c ∨ c.totals ∈ seen ∨ ∃ b ∈ bs, b.totals = c.totals)) : SoundL N i seen (bs ++ cs) := by
  induction bs generalizing seen with
  | nil =>
    rw [List.nil_append]
    induction cs generalizing seen with
    | nil => exact True.intro
    | cons c cs ih =>
      obtain ⟨h1, h2⟩ := hc c (by simp)
      refine ⟨h1, ?_, ih True.intro (fun x hx => ?_)⟩
      · rcases h2 with h2 | h2 | ⟨b, hb, _⟩
        · exact Or.inl h2
        · exact Or.inr h2
        · cases hb
      · obtain ⟨h3, h4⟩ := hc x (by simp [hx])
        refine ⟨h3, ?_⟩
        rcases h4 with h4 | h4 | ⟨b, hb, _⟩
        · exact Or.inl h4
        · exact Or.inr (Or.inl (List.mem_cons_of_mem _ h4))
        · cases hb
  | cons a bs ih =>
    refine ⟨h.1, h.2.1, ih h.2.2 (fun c hm => ?_)⟩
    obtain ⟨h1, h2⟩ := hc c hm
    refine ⟨h1, ?_⟩
    rcases h2 with h2 | h2 | ⟨b, hb, e⟩
    · exact Or.inl h2
    · exact Or.inr (Or.inl (List.mem_cons_of_mem _ h2))
    · rcases List.mem_cons.mp hb with rfl | hb
      · exact Or.inr (Or.inl (by rw [e]; simp))
      · exact Or.inr (Or.inr ⟨b, hb, e⟩)

theorem SoundL.find {N : List (Node F)} {i : Nat} {seen : List (Sums F)} {bs : List (BreakPoint F)} (h : SoundL N i seen bs)
    (f : Sums F → Bool) (hf : ∀ t ∈ seen, f t = false) {c : BreakPoint F} (hc : bs.find? (fun b => f b.totals) = some c) :
    c ∈ bs ∧ f c.totals = true ∧ LinkGood N c := by
  induction bs generalizing seen with
  | nil => cases hc
  | cons a bs ih =>
    rw [List.find?_cons] at hc
    cases e : f a.totals with
    | true =>
      rw [e] at hc
      cases hc
      refine ⟨by simp, e, ?_⟩
      rcases h.2.1 with h2 | h2
      · exact h2
      · rw [hf _ h2] at e; cases e
    | false =>
      rw [e] at hc
      obtain ⟨h1, h2, h3⟩ := ih h.2.2 (fun t ht => by
        rcases List.mem_cons.mp ht with rfl | ht
        · exact e
        · exact hf t ht) hc
      exact ⟨List.mem_cons_of_mem _ h1, h2, h3⟩

variable [Laws F]

/-- A step of the search. -/
theorem step_sound (rt : Runtime) {o : Options F} (hu : Costs o) {N u v : List (Node F)} {x : Node F} (hN : N = u ++ x :: v) {ideal : F}
    (hx : Mild x) (hs : findStartNode N 0 ≤ u.length) (hearly : Gd N 0 u.length) {act : List (BreakPoint F)}
    (ha : SoundL N u.length [] act) :
    ∃ res, stepRes rt (ctxAt o N ideal u.length x) act = .ok res ∧ SoundL N (u.length + 1) [] res ∧
      (x.isForcedBreak = true → ∀ b ∈ res, LinkGood N b ∧ b.previous ≠ []) := by
  have hlt : u.length < N.length := by rw [hN]; simp
  have hlive : Live N act := fun a hm => ⟨(ha.known a hm).before.1, (ha.known a hm).demerits⟩
  have h1 := mainLoop_tame rt (ctxAt o N ideal u.length x) act (fun a h => (hlive a h).1) (fun a h => (hlive a h).2)
    (ctx_tame hu hx hlive)
  refine ⟨_, h1, ?_, ?_⟩
  · refine ((ha.filter (fun t => !(Arith.lt (adjustmentRatio t x (sumAt N u.length) ideal) (Arith.ofInt (-1)) || x.isForcedBreak))
      (by simp)).later (Nat.le_succ _)).append ?_
    intro b hb
    rw [List.mem_filterMap] at hb
    obtain ⟨c, _, hb⟩ := hb
    cases hp : (ctxAt o N ideal u.length x).pick act c with
    | none => rw [hp] at hb; cases hb
    | some a =>
      rw [hp] at hb
      cases hb
      obtain ⟨m1, m2, m3⟩ := ha.find (fun t => (Arith.le (Arith.ofInt (-1)) (adjustmentRatio t x (sumAt N u.length) ideal) &&
        Arith.le (adjustmentRatio t x (sumAt N u.length) ideal) o.tolerance) &&
        decide (newFitnessClass (adjustmentRatio t x (sumAt N u.length) ideal) = c)) (by simp) hp
      have k := ha.known a m1
      refine ⟨⟨?_, ?_, ?_, k.demerits, ⟨hlt, fun _ => Nat.lt_succ_self _⟩, fun _ => ⟨hs, rfl⟩⟩, ?_⟩
      · show (a.toPoint :: a.previous).IsChain _
        cases e : a.previous with
        | nil => simp
        | cons p ps =>
          rw [List.isChain_cons_cons]
          exact ⟨m3 p (by rw [e]; rfl), by rw [← e]; exact k.links⟩
      · intro p hp
        refine k.root p ?_
        have : ((newBreak u.length c (ctxAt o N ideal u.length x).tot a).toPoint :: a.toPoint :: a.previous).getLast? =
            (a.toPoint :: a.previous).getLast? := by simp
        rw [← this]
        exact hp
      · intro p hp
        rcases List.mem_cons.mp hp with rfl | hp
        · exact k.ratio a.toPoint (by simp)
        · exact k.ratio p hp
      · by_cases hr : a.previous = []
        · refine Or.inl ?_
          intro p hp
          cases hp
          have : a.position = 0 := k.root a.toPoint (by rw [hr]; rfl)
          show Gd N a.position u.length
          rw [this]
          exact hearly
        · obtain ⟨t1, t2⟩ := k.totals hr
          have hlt' := k.before.2 hr
          rcases gd_or_same N t1 (le_of_lt hlt') hlt with g | g
          · refine Or.inl ?_
            intro p hp
            cases hp
            exact g
          · by_cases hfx : x.isForcedBreak = true
            · refine Or.inl ?_
              intro p hp
              cases hp
              exact ⟨hlt, u.length, x, le_of_lt hlt', le_refl _, by rw [hN]; simp, Or.inr hfx⟩
            · refine Or.inr (Or.inr ⟨a, List.mem_filter.mpr ⟨m1, ?_⟩, ?_⟩)
              · simp only [Bool.and_eq_true] at m2
                have : Arith.lt (adjustmentRatio a.totals x (sumAt N u.length) ideal) (Arith.ofInt (-1)) = false := by
                  cases e : Arith.lt (adjustmentRatio a.totals x (sumAt N u.length) ideal) (Arith.ofInt (-1)) with
                  | false => rfl
                  | true =>
                    have := Laws.le_of_lt _ _ e
                    rw [m2.1.1] at this
                    cases this
                simp [this, hfx]
              · rw [t2, g]; rfl
  · intro hf b hb
    rcases List.mem_append.mp hb with hb | hb
    · have := (List.mem_filter.mp hb).2
      unfold Ctx.keep at this
      simp [ctxAt, hf] at this
    · rw [List.mem_filterMap] at hb
      obtain ⟨c, _, hb⟩ := hb
      cases hp : (ctxAt o N ideal u.length x).pick act c with
      | none => rw [hp] at hb; cases hb
      | some a =>
        rw [hp] at hb
        cases hb
        have m1 : a ∈ act := List.mem_of_find?_eq_some hp
        have k := ha.known a m1
        refine ⟨?_, by simp [newBreak]⟩
        intro p hp
        cases hp
        refine ⟨hlt, u.length, x, ?_, le_refl _, by rw [hN]; simp, Or.inr hf⟩
        by_cases hr : a.previous = []
        · have : a.position = 0 := k.root a.toPoint (by rw [hr]; rfl)
          show a.position ≤ _
          omega
        · exact le_of_lt (k.before.2 hr)

/-- The search. -/
theorem search_sound (rt : Runtime) {o : Options F} (hu : Costs o) {N : List (Node F)} {ideal : F} (hm : ∀ n ∈ N, Mild n)
    (hearly : ∀ u x v, N = u ++ x :: v → LegalAt u.getLast? x → Gd N 0 u.length)
    (v u : List (Node F)) (act : List (BreakPoint F)) (hN : N = u ++ v) (hs : findStartNode N 0 ≤ u.length)
    (ha : SoundL N u.length [] act) (hlast : v.getLast? = some (newPenalty zero minusInfinity true)) :
    ∃ res, breakLoop rt o N ideal u.getLast? v u.length (sumAt N u.length) act = .ok res ∧ (∀ b ∈ res, Known' N N.length b) ∧
      ∀ b ∈ res, LinkGood N b ∧ b.previous ≠ [] := by
  induction v generalizing u act with
  | nil => cases hlast
  | cons x v ih =>
    rw [breakLoop_cons rt o N ideal u v x hN hs]
    have h' : N = (u ++ [x]) ++ v := by rw [hN]; simp
    have hs' : findStartNode N 0 ≤ (u ++ [x]).length := by simp; omega
    by_cases hv : v = []
    · subst hv
      rw [List.getLast?_singleton] at hlast
      cases hlast
      have e1 : Arith.eq (minusInfinity : F) infinity = false := by
        unfold minusInfinity infinity
        rw [eq_small (F := F) (-10000) 10000 (by decide) (by decide)]; rfl
      have e2 : (newPenalty zero minusInfinity true : Node F).isForcedBreak = true := by
        unfold Node.isForcedBreak newPenalty minusInfinity
        rw [eq_small (F := F) (-10000) (-10000) (by decide) (by decide)]; rfl
      have hl : LegalAt u.getLast? (newPenalty zero minusInfinity true) := Or.inr ⟨rfl, e1⟩
      rw [if_pos hl]
      obtain ⟨res, r1, r2, r3⟩ := step_sound rt hu hN (hm _ (by rw [hN]; simp)) hs (hearly u _ _ hN hl) ha (ideal := ideal)
      rw [r1, ok_bind]
      refine ⟨res, by simp [breakLoop], ?_, r3 e2⟩
      have := (r2.later (j := N.length) (by rw [hN]; simp)).known
      exact this
    · have hl' : v.getLast? = some (newPenalty zero minusInfinity true) := by
        rw [← hlast]
        cases v with
        | nil => exact absurd rfl hv
        | cons a v => simp
      by_cases hl : LegalAt u.getLast? x
      · rw [if_pos hl]
        obtain ⟨res, r1, r2, _⟩ := step_sound rt hu hN (hm _ (by rw [hN]; simp)) hs (hearly u _ _ hN hl) ha (ideal := ideal)
        rw [r1, ok_bind]
        exact ih (u ++ [x]) res h' hs' (by simpa using r2) hl'
      · rw [if_neg hl, ok_bind]
        exact ih (u ++ [x]) act h' hs' (ha.later (by simp)) hl'

/-! ## Lines -/

omit [Laws F] in
theorem skipLoop_solid (ns : List (Node F)) (j k : Nat) {x : Node F} (h : ns[k]? = some x) (hx : Solid x) :
    ∃ m, skipLoop ns j = some (j + m) ∧ m ≤ k := by
  induction ns generalizing j k with
  | nil => simp at h
  | cons n ns ih =>
    unfold skipLoop
    by_cases hn : (decide (n.kind = .box) || n.isForcedBreak) = true
    · rw [if_pos hn]
      exact ⟨0, rfl, Nat.zero_le _⟩
    · rw [if_neg hn]
      cases k with
      | zero =>
        simp at h
        subst h
        exfalso
        apply hn
        rcases hx with hx | hx <;> simp [hx]
      | succ k =>
        simp at h
        obtain ⟨m, h1, h2⟩ := ih (j + 1) k h
        exact ⟨m + 1, by rw [h1]; congr 1; omega, by omega⟩

omit [Laws F] in
theorem linesLoop_good (N : List (Node F)) (pts : List (Point F)) (p : Point F)
    (h : (p :: pts).IsChain (fun p q => Gd N p.position q.position)) (hr : ∀ q ∈ pts, q.ratio = zero) :
    ∃ ls, linesLoop N pts p.position = .ok ls ∧ ∀ y ∈ ls, y.1 = zero ∧ ∀ n ∈ y.2, n ∈ N := by
  induction pts generalizing p with
  | nil => exact ⟨[], rfl, by simp⟩
  | cons q pts ih =>
    rw [List.isChain_cons_cons] at h
    obtain ⟨⟨g1, k, x, g2, g3, g4, g5⟩, h2⟩ := h
    obtain ⟨ls, l1, l2⟩ := ih q h2 (fun r hm => hr r (by simp [hm]))
    obtain ⟨m, m1, m2⟩ := skipLoop_solid (N.drop p.position) 0 (k - p.position) (x := x)
      (by rw [List.getElem?_drop, show p.position + (k - p.position) = k by omega]; exact g4) g5
    have hsk : skipNodes p.position N = .ok (p.position + m) := by
      unfold skipNodes slice
      rw [if_pos (by omega)]
      simp only [ok_bind, Int.toNat_natCast]
      rw [List.take_of_length_le (by simp), m1]
      simp [pure_eq_ok]
    have hsl : ∃ ns, slice N ((p.position + m : Nat) : Int) ((q.position : Int) + 1) = .ok ns ∧ ∀ n ∈ ns, n ∈ N := by
      unfold slice
      rw [if_pos (by omega)]
      refine ⟨_, rfl, fun n hn => ?_⟩
      first
        | exact List.mem_of_mem_drop (List.mem_of_mem_take hn)
        | exact List.mem_of_mem_take (List.mem_of_mem_drop hn)
    obtain ⟨ns, s1, s2⟩ := hsl
    refine ⟨(q.ratio, ns) :: ls, ?_, ?_⟩
    · simp only [linesLoop, hsk, ok_bind, s1, l1, pure_eq_ok]
    · intro y hy
      rcases List.mem_cons.mp hy with rfl | hy
      · exact ⟨hr q (by simp), s2⟩
      · exact l2 y hy

omit [Laws F] in
theorem nodesLoop_ok (o : Options F) (attrs : AState) (ns : List (Node F))
    (h : ∀ n ∈ ns, n.kind = .glue → ∃ t, glueText o zero n = .ok t) (out : List Rune) (it : AIter) :
    ∃ r, nodesLoop o attrs zero ns out it = .ok r := by
  induction ns generalizing out it with
  | nil => exact ⟨_, rfl⟩
  | cons n ns ih =>
    have ih' := ih (fun k hk => h k (by simp [hk]))
    unfold nodesLoop
    cases hk : n.kind with
    | box => exact ih' _ _
    | penalty => exact ih' _ _
    | glue =>
      obtain ⟨t, ht⟩ := h n (by simp) hk
      simp only [ht, ok_bind]
      exact ih' _ _

omit [Laws F] in
theorem renderLoop_ok (o : Options F) (attrs : AState) (ls : List (F × List (Node F)))
    (h : ∀ y ∈ ls, y.1 = zero ∧ ∀ n ∈ y.2, n.kind = .glue → ∃ t, glueText o zero n = .ok t) (it : AIter) :
    ∃ r, renderLoop o attrs ls it = .ok r := by
  induction ls generalizing it with
  | nil => exact ⟨_, rfl⟩
  | cons y ls ih =>
    obtain ⟨h1, h2⟩ := h y (by simp)
    obtain ⟨r, hr⟩ := nodesLoop_ok o attrs y.2 h2 (it.startOfLine attrs []) it
    obtain ⟨r', hr'⟩ := ih (fun k hk => h k (by simp [hk])) r.2
    unfold renderLoop
    simp only [h1, hr, ok_bind, hr', pure_eq_ok]
    exact ⟨_, rfl⟩

/-- The search and the lines do not panic. -/
theorem break_ok (rt : Runtime) {o : Options F} (hu : Costs o) {N u : List (Node F)} {ideal : F} (hm : ∀ n ∈ N, Mild n)
    (hN : N = u ++ [newPenalty zero minusInfinity true])
    (hearly : ∀ u x v, N = u ++ x :: v → LegalAt u.getLast? x → Gd N 0 u.length) :
    ∃ r, breakPoints rt o N ideal = .ok r ∧ ∀ chain, r = some chain → chain.IsChain (fun p q => Gd N p.position q.position) ∧
      ((∀ n ∈ N, n.kind = .glue → ∃ t, glueText o zero n = .ok t) → ∀ attrs, ∃ lines, render o attrs N chain = .ok lines) := by
  have hs : findStartNode N 0 < N.length := by
    have := start_before u 0
    rw [← hN] at this
    rw [show N.length = u.length + 1 by rw [hN]; simp]
    omega
  obtain ⟨w, hw⟩ : ∃ w, w = N.take (findStartNode N 0) := ⟨_, rfl⟩
  have hwl : w.length = findStartNode N 0 := by rw [hw]; simp; omega
  have hNw : N = w ++ N.drop (findStartNode N 0) := by rw [hw, List.take_append_drop]
  have hroot : SoundL N w.length [] [rootPoint] := by
    refine ⟨⟨by simp [rootPoint], by simp [rootPoint], by simp [rootPoint], rfl, ⟨?_, by simp [rootPoint]⟩, by simp [rootPoint]⟩,
      Or.inl (by simp [LinkGood, rootPoint]), True.intro⟩
    show 0 < N.length
    omega
  obtain ⟨res, h1, h2, h3⟩ := search_sound rt hu hm hearly (ideal := ideal) (N.drop (findStartNode N 0)) w [rootPoint] hNw (by omega) hroot
    (by rw [List.getLast?_drop, if_neg (by omega), hN]; simp)
  have hprev : w.getLast? = if findStartNode N 0 = 0 then none else N[findStartNode N 0 - 1]? := by
    by_cases h0 : findStartNode N 0 = 0
    · rw [if_pos h0, hw, h0]; rfl
    · rw [if_neg h0, List.getLast?_eq_getElem?, hwl, hw, List.getElem?_take_of_lt (by omega)]
  have hsum : sumAt N w.length = Sums.zero := by
    unfold sumAt
    rw [hwl, List.drop_eq_nil_of_le (by simp)]
    rfl
  rw [hprev, hsum, hwl] at h1
  unfold breakPoints
  simp only [h1, ok_bind, pure_eq_ok]
  cases res with
  | nil => exact ⟨none, rfl, by simp⟩
  | cons a res =>
    rw [if_pos (by simp)]
    refine ⟨_, rfl, ?_⟩
    have hb : findBestBreak (a :: res) noBreak ∈ a :: res := by
      unfold findBestBreak
      rw [if_pos]
      · rcases best_mem res a with h | h
        · rw [h]; simp
        · exact List.mem_cons_of_mem _ h
      · show Arith.lt a.totalDemerits Arith.maxFloat = true
        rw [(h2 a (by simp)).demerits]
        exact Laws.zero_lt_max
    obtain ⟨b, hbe⟩ : ∃ b, b = findBestBreak (a :: res) noBreak := ⟨_, rfl⟩
    rw [← hbe] at hb ⊢
    have k := h2 b hb
    obtain ⟨k1, k2⟩ := h3 b hb
    unfold reverseBreakPoints
    rw [if_neg k2]
    intro chain hc
    cases hc
    have hchain : (b.toPoint :: b.previous).IsChain (fun q p => Gd N p.position q.position) := by
      cases e : b.previous with
      | nil => simp
      | cons p ps =>
        rw [List.isChain_cons_cons]
        exact ⟨k1 p (by rw [e]; rfl), by rw [← e]; exact k.links⟩
    have hrev : (b.previous.reverse ++ [b.toPoint]).IsChain (fun p q => Gd N p.position q.position) := by
      have := List.isChain_reverse.mpr hchain
      rwa [List.reverse_cons] at this
    refine ⟨hrev, fun hglue attrs => ?_⟩
    cases e : b.previous.reverse ++ [b.toPoint] with
    | nil => simp at e
    | cons p pts =>
      rw [e] at hrev
      have hp0 : p.position = 0 := by
        refine k.root p ?_
        have : (b.previous.reverse ++ [b.toPoint]).head? = some p := by rw [e]; rfl
        rw [← List.reverse_cons, List.head?_reverse] at this
        exact this
      have hz : ∀ q ∈ pts, q.ratio = zero := by
        intro q hq
        refine k.ratio q ?_
        have : q ∈ b.previous.reverse ++ [b.toPoint] := by rw [e]; simp [hq]
        rw [← List.reverse_cons] at this
        exact List.mem_reverse.mp this
      obtain ⟨ls, l1, l2⟩ := linesLoop_good N pts p hrev hz
      obtain ⟨r, hr⟩ := renderLoop_ok o attrs ls (fun y hy => ⟨(l2 y hy).1, fun n hn => hglue n ((l2 y hy).2 n hn)⟩) attrs.iterator
      rw [hp0] at l1
      unfold render
      rw [List.tail_cons, l1, ok_bind]
      exact ⟨r, hr⟩

end Verif.Proofs.LB
