import Verif.Props.Ragged
import Verif.Proofs.LBSteps

/-! # C100: the work of the search for break points -/

set_option linter.unusedSectionVars false

namespace Verif.Props
open Verif.Go Verif.Model Verif.Model.LB Verif.Spec Verif.Spec.Ansi Verif.Spec.LB Verif.Proofs Verif.Proofs.LB

section
variable {F : Type} [Arith F]

/-- **C100.** The search that counts its rounds is the search: it has the same result. -/
theorem C100_counted (rt : Runtime) (l : Options F) (nodes : List (Node F)) (ideal : F) :
    (breakPointsC rt l nodes ideal).res = breakPoints rt l nodes ideal := breakPointsC_res rt l nodes ideal

/-- **C100.** Whatever the nodes and the options, the number of rounds is at most quadratic in the number of nodes. -/
theorem C100_search (rt : Runtime) (ho : OneWalk rt) (l : Options F) (nodes : List (Node F)) (ideal : F) :
    (breakPointsC rt l nodes ideal).steps ≤ 3 * (nodes.length * nodes.length) + 12 * nodes.length + 2 :=
  breakPointsC_steps ho l nodes ideal

end

section
variable {F : Type} [Arith F] [Laws F] {rt : Runtime} {env : Env} {dict : Dictionary} {opts : List (Opt F)}
  {text : List Rune → Int} {n : Nat} {l : LineBreaker F} {tokens : List (List Rune)} {maxWidth : F} {W : Int}

/-- **C100.** For a paragraph of `N` runes and words, at most `75 N² + 60 N + 2` rounds, in lines of any width. -/
theorem C100_paragraph (hs : Sane (defaultOptions opts) text n) (hd : AsciiDigits env) (hu : Used env dict opts l)
    (ho : OneWalk rt) (he : ∀ t ∈ tokens, EscapeFree t) (hne : tokens ≠ []) (maxWidth : F) (N : Nat)
    (hN : tokens.flatten.length + tokens.length = N) :
    searchSteps rt env l tokens maxWidth ≤ 75 * (N * N) + 60 * N + 2 := by
  obtain ⟨nodes, attrs, h1, h2⟩ := call_nodes (rt := rt) hs hd hu he hne
  unfold searchSteps
  rw [h1]
  have h3 := C100_search rt ho l.toOptions nodes (l.scale maxWidth)
  have hk := List.length_pos_iff.mpr hne
  have h4 : nodes.length ≤ 5 * N := by omega
  have h5 := Nat.mul_le_mul h4 h4
  have e : 5 * N * (5 * N) = 25 * (N * N) := by
    rw [Nat.mul_mul_mul_comm]
  simp only []
  omega

/-! ## From below -/

/-- What is left after the first words. -/
def restsOf (sp : Splitter) : List (List Rune) → List (List Sym)
  | [] => []
  | [_] => []
  | _ :: u :: ts => paraSyms sp (u :: ts) :: restsOf sp (u :: ts)

theorem restsOf_length (sp : Splitter) : ∀ ts, (restsOf sp ts).length = ts.length - 1
  | [] => rfl
  | [_] => rfl
  | _ :: u :: ts => by
    have := restsOf_length sp (u :: ts)
    simp only [restsOf, List.length_cons] at this ⊢
    omega

theorem restsOf_shorter (sp : Splitter) : ∀ ts, ∀ r ∈ restsOf sp ts, r.length < (paraSyms sp ts).length
  | [], r, h => by cases h
  | [_], r, h => by cases h
  | t :: u :: ts, r, h => by
    have ih := restsOf_shorter sp (u :: ts) r
    have e : paraSyms sp (t :: u :: ts) = tokenSyms sp t ++ .gap :: paraSyms sp (u :: ts) := rfl
    rw [e, List.length_append, List.length_cons]
    rcases List.mem_cons.mp h with rfl | h
    · omega
    · have := ih h
      omega

theorem restsOf_nodup (sp : Splitter) : ∀ ts, (restsOf sp ts).Nodup
  | [] => List.nodup_nil
  | [_] => List.nodup_nil
  | _ :: u :: ts => by
    refine List.nodup_cons.mpr ⟨fun h => ?_, restsOf_nodup sp (u :: ts)⟩
    exact Nat.lt_irrefl _ (restsOf_shorter sp (u :: ts) _ h)

theorem restsOf_left {sp : Splitter} (hl : sp.Lossless) {P : Bool → List Sym → Option Sym → Prop} {ss : List Sym} :
    ∀ (ts : List (List Rune)) (first : Bool), (∀ t ∈ ts, t ≠ []) → Left P ss first (paraSyms sp ts) →
      (∀ t ∈ ts.head?, P first (tokenSyms sp t) (some .gap)) → (∀ t ∈ ts.tail, P false (tokenSyms sp t) (some .gap)) →
      ∀ r ∈ restsOf sp ts, Left P ss false r
  | [], _, _, _, _, _, r, h => by cases h
  | [_], _, _, _, _, _, r, h => by cases h
  | t :: u :: ts, first, hne, hleft, h1, h2, r, h => by
    have e : paraSyms sp (t :: u :: ts) = tokenSyms sp t ++ .gap :: paraSyms sp (u :: ts) := rfl
    rw [e] at hleft
    have hst : StartsWithPart (tokenSyms sp t) := para_starts hl t (hne t (by simp)) []
    have hst2 := para_starts hl u (hne u (by simp)) ts
    have e2 : startLine (paraSyms sp (u :: ts)) = paraSyms sp (u :: ts) := by
      obtain ⟨a, b, e⟩ := hst2
      rw [e]; rfl
    have step := Left.line (tokenSyms sp t) .gap hleft hst (by simp) (h1 t rfl)
    rw [e2] at step
    rcases List.mem_cons.mp h with rfl | h
    · exact step
    · refine restsOf_left hl (u :: ts) false (fun x hx => hne x (by simp [hx])) step ?_ ?_ r h
      · intro x hx
        simp only [List.head?_cons, Option.mem_def, Option.some.injEq] at hx
        subst hx
        exact h2 u (by simp)
      · intro x hx
        exact h2 x (by simp only [List.tail_cons] at hx ⊢; simp [hx])

/-- **C100.** With `k` places where a line may start according to the lines acceptable before, at least `k (k - 1) / 2` rounds. -/
theorem C100_places (c : Call rt env dict opts text n l tokens maxWidth W) (hW : 0 < W) (h0 : tokens ≠ [])
    (hf : tokens.head? ≠ some []) (rests : List (List Sym)) (hn : rests.Nodup)
    (hr : ∀ r ∈ rests, Left (Acceptable (measureOf (defaultOptions opts) text) W (Tolerated (defaultOptions opts)))
      (paraSyms (splitterOf env dict (defaultOptions opts)) tokens) false r) :
    rests.length * (rests.length - 1) ≤ 2 * searchSteps rt env l tokens maxWidth := by
  obtain ⟨t, ts, rfl⟩ := List.exists_cons_of_ne_nil h0
  have h := call_steps c hW (para_starts (lossless (env := env) (dict := dict) c.sane) t (by simpa using hf) ts) rests hn hr
  rw [Nat.mul_sub, Nat.mul_one]
  omega

/-- Words that may each be set alone on a line: a line may start with each of them. -/
theorem words_left (c : Call rt env dict opts text n l tokens maxWidth W)
    (hne : ∀ w ∈ tokens, w ≠ []) (wd : Rune → Int) (hwd : SumOf text tokens wd) (τ B : Int)
    (hτ : Arith.le (Arith.tenths τ) (defaultOptions opts).tolerance = true) (hB : 10 * B ≤ 6 * τ)
    (hfit : ∀ w ∈ tokens, text w ≤ W) (hfull : ∀ w ∈ tokens, W - B ≤ text w)
    (hplain : ∀ w ∈ tokens.tail, PlainWord env w) :
    ∀ r ∈ restsOf (splitterOf env dict (defaultOptions opts)) tokens,
      Left (Acceptable (measureOf (defaultOptions opts) text) W (Tolerated (defaultOptions opts)))
        (paraSyms (splitterOf env dict (defaultOptions opts)) tokens) false r := by
  have hl := lossless (env := env) (dict := dict) c.sane
  have hWb := call_bound c
  have hbig : (10000 : Int) ≤ Laws.bound F := _root_.le_trans (by decide) (Laws.bound_large (F := F))
  have hacc : ∀ w ∈ tokens, ∀ f : Bool, lineStretch (measureOf (defaultOptions opts) text) f
      (tokenSyms (splitterOf env dict (defaultOptions opts)) w) (some .gap) = 6 →
      Acceptable (measureOf (defaultOptions opts) text) W (Tolerated (defaultOptions opts)) f
        (tokenSyms (splitterOf env dict (defaultOptions opts)) w) (some .gap) := by
    intro w hw f hst
    have h1 := hfit w hw
    have h2 := hfull w hw
    have h3 := c.sane.nonneg w
    unfold Acceptable
    rw [token_width c.sane hwd w hw, hst]
    simp only [endWidth, add_zero]
    by_cases e : text w = W
    · exact Or.inl e
    · refine Or.inr ⟨by omega, by decide, ?_⟩
      exact Laws.le_trans _ _ _ (Laws.div_tenths _ _ τ (by omega) (by omega) (by decide) (by omega) (by omega)) hτ
  refine restsOf_left hl tokens true hne .start (fun t ht => hacc t (List.mem_of_mem_head? ht) true (by simp [lineStretch]))
      (fun t ht => hacc t (List.mem_of_mem_tail ht) false ?_)
  have := plain_start (dict := dict) c.sane t (hplain t ht)
  unfold PlainStart markFirst at this
  unfold lineStretch
  revert this
  cases tokenSyms (splitterOf env dict (defaultOptions opts)) t with
  | nil => intro _; rfl
  | cons a b =>
    cases b with
    | nil => intro _; rfl
    | cons x b => cases x <;> simp [markFirst]

/-- **C100.** For `k` words that may each be set alone on a line, at least `(k - 1) (k - 2) / 2` rounds: the work is not
linear. -/
theorem C100_words (c : Call rt env dict opts text n l tokens maxWidth W) (hW : 0 < W) (h0 : tokens ≠ [])
    (hne : ∀ w ∈ tokens, w ≠ []) (wd : Rune → Int) (hwd : SumOf text tokens wd) (τ B : Int)
    (hτ : Arith.le (Arith.tenths τ) (defaultOptions opts).tolerance = true) (hB : 10 * B ≤ 6 * τ)
    (hfit : ∀ w ∈ tokens, text w ≤ W) (hfull : ∀ w ∈ tokens, W - B ≤ text w)
    (hplain : ∀ w ∈ tokens.tail, PlainWord env w) :
    (tokens.length - 1) * (tokens.length - 2) ≤ 2 * searchSteps rt env l tokens maxWidth := by
  have key := C100_places c hW h0 (by
      obtain ⟨t, ts, rfl⟩ := List.exists_cons_of_ne_nil h0
      simpa using hne t (by simp)) (restsOf (splitterOf env dict (defaultOptions opts)) tokens) (restsOf_nodup _ _)
    (words_left c hne wd hwd τ B hτ hB hfit hfull hplain)
  rw [restsOf_length] at key
  exact key

/-- **C100**, with the default options: for `k` words no wider than lines of at most 51 columns, at least
`(k - 1) (k - 2) / 2` rounds. -/
theorem C100_default (hu : Used env dict [] l) (hw : Walks rt) (hd : AsciiDigits env)
    (h : Ordinary tokens W) (hW : 0 < W) (hn : W ≤ 51) (h0 : tokens ≠ []) (hne : ∀ w ∈ tokens, w ≠ [])
    (hfit : ∀ w ∈ tokens, defaultText w ≤ W) (hplain : ∀ w ∈ tokens.tail, PlainWord env w) :
    (tokens.length - 1) * (tokens.length - 2) ≤ 2 * searchSteps rt env l tokens (Arith.ofInt W : F) := by
  have c := call_default hu hw hd h
  refine C100_words c hW h0 hne _ (sumOf_default h) 86 51 (Laws.tenths_le _ _ (by decide))
    (by decide) hfit (fun w _ => ?_) hplain
  have := c.sane.nonneg w
  omega

end

/-! ## Cases -/

local instance stepsLaws : Laws Rat := ratLaws (2 ^ 53) (le_refl _)

theorem oneWalk_forward : OneWalk forward := by
  intro i n
  show ([_, _, _, _] : List Class).Nodup
  decide

/-- Ten words of one letter. -/
def letters : List (List Rune) := List.replicate 10 [0x7A]

theorem letters_call : Call forward Env.ascii (dictOf sampleLines) [unit] demoText 1 (demo []) letters (Arith.ofInt 20 : Rat) 20 :=
  unit_call [] (sane_unit _ rfl rfl rfl ⟨by decide +kernel, by decide +kernel⟩ rfl rfl) rfl (by decide +kernel) (by decide +kernel)

/-- The search for these words in lines of 20 columns. -/
example : searchSteps forward Env.ascii (demo []) letters (Arith.ofInt 20 : Rat) = 229 := by decide +kernel

example : searchSteps forward Env.ascii (demo []) letters (Arith.ofInt 20 : Rat) ≤ 75 * (20 * 20) + 60 * 20 + 2 :=
  C100_paragraph letters_call.sane letters_call.digits letters_call.used oneWalk_forward letters_call.escapeFree
    (by decide +kernel) _ 20 (by decide +kernel)

example : (10 - 1) * (10 - 2) ≤ 2 * searchSteps forward Env.ascii (demo []) letters (Arith.ofInt 20 : Rat) :=
  C100_words letters_call (by decide) (by decide +kernel) (by decide +kernel) (fun _ => 1) (sumOf_demo _) 86 51 (by decide +kernel)
    (by decide) (by decide +kernel) (by decide +kernel) (by
      intro w hw
      have : w = [0x7A] := List.eq_of_mem_replicate (List.mem_of_mem_tail hw)
      subst this
      intro r hr
      simp only [List.head?_cons, Option.mem_def, Option.some.injEq] at hr
      subst hr
      exact ⟨by unfold IsMark; decide +kernel, by decide +kernel⟩)

end Verif.Props
