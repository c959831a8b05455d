import Verif.Spec.AnyCall
import Verif.Proofs.LBDisplay
import Verif.Proofs.AnsiToken
import Verif.Proofs.AnsiCut

/-! # Paragraphs of any words -/

namespace Verif.Proofs.LB
open Verif.Go Verif.Model Verif.Model.LB Verif.Spec Verif.Spec.Ansi Verif.Spec.LB Verif.Proofs

/-! ## Words -/

theorem found_strips {rt : Runtime} {env : Env} {token : List Rune} {xs : List Span} (h : Found rt env token xs) :
    Strips rt env token xs := h

theorem strips_found {rt : Runtime} {env : Env} {token : List Rune} {xs : List Span} (h : Strips rt env token xs) :
    Found rt env token xs := h

theorem found_all {rt : Runtime} {env : Env} {tokens : List (List Rune)} {tks : List (List Span)}
    (h : List.Forall₂ (Found rt env) tokens tks) : List.Forall₂ (Strips rt env) tokens tks :=
  h.imp (fun _ _ h => found_strips h)

theorem span_tok (mem : List Rune) (tok : Ansi.StrippedToken) :
    Span.runes (⟨fieldRunes mem tok.start, textRunes mem tok.text, fieldRunes mem tok.stop⟩ : Span) =
      Ansi.tokRunes mem tok := by
  obtain ⟨x, a, b, r⟩ := tok
  cases x <;> cases a <;> cases b <;> rfl

/-- What is found in a word that is cut in a parameter. -/
theorem found_cut (rt : Runtime) {env : Env} (hd : AsciiDigits env) {t : List Rune} (hl : (t.length : Int) < 2 ^ 63)
    (hc : EndsLong env t) {xs : List Span} (h : Found rt env t xs) :
    rt.spare t ≠ [] ∧ t.length < (xs.flatMap Span.runes).length := by
  have he : (⟨0, t.length⟩ : View).elems (t ++ rt.spare t) = t := by simp [View.elems]
  have hv : (⟨0, t.length⟩ : View).Valid (t ++ rt.spare t) := by simp [View.Valid]
  obtain ⟨toks, mem, h1, rfl⟩ := h
  rcases Ansi.stripToken_spec env hd (t ++ rt.spare t) ⟨0, t.length⟩ hv hl with ⟨g1, _⟩ | ⟨toks', g1, g2⟩
  · rw [g1] at h1; cases h1
  · rw [g2] at h1; cases h1
    have := Ansi.run_over hd g1 hv (by rw [he]; exact (Ansi.overruns_iff hd).mpr hc)
    rw [List.flatMap_map]
    simp only [span_tok]
    refine ⟨fun e => ?_, this.2⟩
    rw [e] at this
    simp at this

theorem found_more (rt : Runtime) {env : Env} (hd : AsciiDigits env) {t : List Rune} (hl : (t.length : Int) < 2 ^ 63)
    (hs : rt.spare t ≠ []) : ∃ xs, Found rt env t xs := by
  have hv : (⟨0, t.length⟩ : View).Valid (t ++ rt.spare t) := by simp [View.Valid]
  rcases Ansi.stripToken_spec env hd (t ++ rt.spare t) ⟨0, t.length⟩ hv hl with ⟨_, g1, _⟩ | ⟨toks', g1, g2⟩
  · simp at g1; exact absurd g1 hs
  · exact ⟨_, toks', _, g2, rfl⟩

theorem forall₂_some {α β : Type} {R : α → β → Prop} {as : List α} {bs : List β} (h : List.Forall₂ R as bs) {a : α}
    (ha : a ∈ as) : ∃ b, R a b := by
  induction h with
  | nil => cases ha
  | @cons x y _ _ h1 _ ih =>
    rcases List.mem_cons.mp ha with e | e
    · exact ⟨y, by rw [e]; exact h1⟩
    · exact ih e

theorem found_whole (rt : Runtime) {env : Env} (hd : AsciiDigits env) (t : List Rune) (hl : (t.length : Int) < 2 ^ 63)
    (hc : ¬ EndsLong env t) : ∃ xs, Found rt env t xs ∧ xs.flatMap Span.runes = t ∧ ∀ x ∈ xs, x.Styled env := by
  have he : (⟨0, t.length⟩ : View).elems (t ++ rt.spare t) = t := by simp [View.elems]
  have hv : (⟨0, t.length⟩ : View).Valid (t ++ rt.spare t) := by simp [View.Valid]
  rcases Ansi.stripToken_spec env hd (t ++ rt.spare t) ⟨0, t.length⟩ hv hl with ⟨_, _, h1⟩ | ⟨toks, h1, h2⟩
  · rw [he] at h1
    exact absurd (Ansi.cut_of_overruns h1) hc
  · refine ⟨_, ⟨toks, _, h2, rfl⟩, ?_, ?_⟩
    rotate_left
    · intro x hx
      obtain ⟨tok, htok, rfl⟩ := List.mem_map.mp hx
      obtain ⟨g1, g2⟩ := Ansi.run_sequences hd h1 hv tok htok
      have hopt : ∀ o, fieldRunes (t ++ rt.spare t) o = Ansi.optElems (t ++ rt.spare t) o := by intro o; cases o <;> rfl
      refine ⟨?_, ?_⟩
      · rcases g1 with e | ⟨s, a, b, c, e⟩
        · left; simp only [e]; rfl
        · exact Or.inr ⟨s, a, b, c, (hopt _).trans e⟩
      · rcases g2 with e | ⟨s, a, b, c, e⟩
        · left; simp only [e]; rfl
        · exact Or.inr ⟨s, a, b, c, (hopt _).trans e⟩
    have h3 := Ansi.run_whole h1 hv (by rw [he]; exact fun h => hc (Ansi.cut_of_overruns h))
    rw [he] at h3
    rw [List.flatMap_map]
    simp only [span_tok]
    exact h3

/-! ## Spans without text -/

/-- The spans with some text. -/
def full (xs : List Span) : List Span := xs.filter (fun x => decide (x.text ≠ []))

theorem full_text (xs : List Span) : ∀ x ∈ full xs, x.text ≠ [] := by
  intro x hx
  simpa using (List.mem_filter.mp hx).2

theorem full_syms {sp : Splitter} (hl : sp.Lossless) (xs : List Span) : spansSyms sp (full xs) = spansSyms sp xs := by
  induction xs with
  | nil => rfl
  | cons x xs ih =>
    by_cases h : x.text = []
    · have : full (x :: xs) = full xs := by simp [full, h]
      rw [this, ih]
      show _ = tokenSyms sp x.text ++ _
      rw [h, tokenSyms_nil hl]; rfl
    · have : full (x :: xs) = x :: full xs := by simp [full, h]
      rw [this]
      show tokenSyms sp x.text ++ spansSyms sp (full xs) = tokenSyms sp x.text ++ spansSyms sp xs
      rw [ih]

theorem full_flat (xs : List Span) : (full xs).flatMap Span.text = xs.flatMap Span.text := by
  induction xs with
  | nil => rfl
  | cons x xs ih =>
    by_cases h : x.text = []
    · have : full (x :: xs) = full xs := by simp [full, h]
      rw [this, ih]; simp [h]
    · have : full (x :: xs) = x :: full xs := by simp [full, h]
      rw [this]; simp [ih]

theorem full_ne {xs : List Span} (h : ∃ x ∈ xs, x.text ≠ []) : full xs ≠ [] := by
  obtain ⟨x, h1, h2⟩ := h
  exact List.ne_nil_of_mem (List.mem_filter.mpr ⟨h1, by simpa using h2⟩)

theorem full_styled {sp : Splitter} (hl : sp.Lossless) (tks : List (List Span)) :
    styledSyms sp (tks.map full) = styledSyms sp tks := by
  induction tks with
  | nil => rfl
  | cons t ts ih =>
    cases ts with
    | nil => exact full_syms hl t
    | cons u us =>
      simp only [List.map_cons, styledSyms] at ih ⊢
      rw [ih, full_syms hl]

/-! ## Texts with sequences inserted -/

theorem sprinkled_append {seqs : List (List Rune)} {a b c d : List Rune} (h1 : Sprinkled seqs a b) (h2 : Sprinkled seqs c d) :
    Sprinkled seqs (a ++ c) (b ++ d) := by
  induction h1 with
  | nil => exact h2
  | rune r _ ih => exact .rune r ih
  | seq s h _ ih => rw [List.append_assoc]; exact .seq s h ih

theorem sprinkled_text (seqs : List (List Rune)) (t : List Rune) : Sprinkled seqs t t := by
  induction t with
  | nil => exact .nil
  | cons r t ih => exact .rune r ih

theorem sprinkled_seqs {seqs : List (List Rune)} (a : List (List Rune)) (h : ∀ x ∈ a, x = [] ∨ x ∈ seqs) :
    Sprinkled seqs [] a.flatten := by
  induction a with
  | nil => exact .nil
  | cons x a ih =>
    have ih' := ih (fun y hy => h y (by simp [hy]))
    rw [List.flatten_cons]
    rcases h x (by simp) with rfl | h
    · exact ih'
    · exact .seq x h ih'

theorem sprinkled_seq {seqs : List (List Rune)} {x : List Rune} (h : x = [] ∨ x ∈ seqs) : Sprinkled seqs [] x := by
  have := sprinkled_seqs (seqs := seqs) [x] (by simpa using h)
  simpa using this

/-- The sequences of a piece are among `seqs`. -/
def SeqsIn (seqs : List (List Rune)) (p : Piece) : Prop := (p.start = [] ∨ p.start ∈ seqs) ∧ (p.stop = [] ∨ p.stop ∈ seqs)

theorem sprinkled_dress {seqs : List (List Rune)} (g : List Rune) (body : List Sym) (ps : List Piece)
    (hp : ∀ p ∈ ps, SeqsIn seqs p) (ht : parts body <+: ps.map Piece.text) :
    Sprinkled seqs (lineText g body) (dress g body ps) := by
  induction body generalizing ps with
  | nil => exact .nil
  | cons s body ih =>
    cases s with
    | part t =>
      cases ps with
      | nil => simp [parts] at ht
      | cons p ps =>
        simp only [parts, List.map_cons, List.cons_prefix_cons] at ht
        simp only [dress, lineText]
        obtain ⟨h1, h2⟩ := hp p (by simp)
        have := sprinkled_append (sprinkled_append (sprinkled_append (sprinkled_seq h1) (sprinkled_text seqs p.text)) (sprinkled_seq h2))
          (ih ps (fun q hq => hp q (by simp [hq])) ht.2)
        rw [ht.1]
        simpa using this
    | gap => exact sprinkled_append (sprinkled_text seqs g) (ih ps hp ht)
    | soft => exact ih ps hp ht
    | mark => exact ih ps hp ht
    | hard => exact ih ps hp ht

theorem wrapped_sprinkled {seqs : List (List Rune)} {g : List Rune} {H P : List Piece}
    (hP : ∀ p ∈ H ++ P, SeqsIn seqs p) {k : Nat} {ls : List Line} {out : List (List Rune)}
    (h : Wrapped g ((H ++ P).map Piece.start) ((H ++ P).map Piece.stop) P k ls out)
    (ht : ls.flatMap (fun x => parts x.body) <+: (P.drop k).map Piece.text) :
    List.Forall₂ (Sprinkled seqs) (ls.map (Line.text g)) out := by
  induction h with
  | nil k => exact .nil
  | @cons k line rest out a b ha hb hr ih =>
    rw [List.flatMap_cons] at ht
    rw [List.map_cons]
    refine .cons ?_ (ih ?_)
    · have h1 : Sprinkled seqs [] a.flatten := by
        refine sprinkled_seqs a (fun x hx => ?_)
        obtain ⟨p, hp, rfl⟩ := List.mem_map.mp (ha x hx)
        exact (hP p hp).1
      have h2 : Sprinkled seqs [] b.flatten := by
        refine sprinkled_seqs b (fun x hx => ?_)
        obtain ⟨p, hp, rfl⟩ := List.mem_map.mp (hb x hx)
        exact (hP p hp).2
      have h3 := sprinkled_dress g line.body (P.drop k)
        (fun p hp => hP p (List.mem_append.mpr (Or.inr (List.mem_of_mem_drop hp)))) ((List.prefix_append _ _).trans ht)
      have := sprinkled_append (sprinkled_append (sprinkled_append h1 h3) (sprinkled_text seqs line.ending)) h2
      simpa [Line.text] using this
    · obtain ⟨w, hw⟩ := ht
      refine ⟨w, ?_⟩
      rw [← List.drop_drop, List.map_drop, ← hw]
      simp

theorem dressParts_seqs (start stop : List Rune) (ts : List (List Rune)) :
    ∀ p ∈ dressParts start stop ts, (p.start = [] ∨ p.start = start) ∧ (p.stop = [] ∨ p.stop = stop) := by
  induction ts generalizing start with
  | nil => intro p hp; cases hp
  | cons t ts ih =>
    cases ts with
    | nil => intro p hp; simp [dressParts] at hp; subst hp; simp
    | cons u us =>
      intro p hp
      simp only [dressParts, List.mem_cons] at hp
      rcases hp with rfl | hp
      · simp
      · have := ih [] p hp
        refine ⟨Or.inl ?_, this.2⟩
        rcases this.1 with h | h <;> exact h

theorem styledPieces_seqs (sp : Splitter) (tks : List (List Span)) : ∀ p ∈ styledPieces sp tks, SeqsIn (seqsOf tks) p := by
  intro p hp
  obtain ⟨t, ht, hp⟩ := List.mem_flatMap.mp hp
  obtain ⟨x, hx, hp⟩ := List.mem_flatMap.mp hp
  obtain ⟨h1, h2⟩ := dressParts_seqs _ _ _ p hp
  have hm : ∀ s, s = x.start ∨ s = x.stop → s ∈ seqsOf tks := by
    intro s hs
    exact List.mem_flatMap.mpr ⟨t, ht, List.mem_flatMap.mpr ⟨x, hx, by simpa using hs⟩⟩
  exact ⟨h1.imp_right (fun e => hm _ (Or.inl e)), h2.imp_right (fun e => hm _ (Or.inr e))⟩

/-! ## Calls -/

section
variable {F : Type} [Arith F] [Laws F] {rt : Runtime} {env : Env} {dict : Dictionary} {opts : List (Opt F)}
  {text : List Rune → Int} {n : Nat} {l l' : LineBreaker F} {seqs : List (List Rune)} {tokens : List (List Rune)}
  {tks : List (List Span)} {maxWidth : F} {W : Int} {lines : List (List Rune)}

theorem any_keeps (hs : Sane (defaultOptions opts) text n) (h : AnyUsed env dict opts l seqs) :
    ∃ H, Keeps env dict opts l H ∧ ∀ p ∈ H, SeqsIn seqs p := by
  induction h with
  | new => exact ⟨[], ⟨rfl, rfl⟩, by simp⟩
  | @call l l' seqs rt tokens tks maxWidth r _ hf hr ih =>
    obtain ⟨H, hk, hH⟩ := ih
    obtain ⟨nodes, attrs, h1, rfl⟩ := align_kept hr
    refine ⟨H ++ styledPieces (splitterOf env dict (defaultOptions opts)) tks, ⟨?_, ?_⟩, ?_⟩
    · have := hk.same
      show ({ l with attrList := attrs } : LineBreaker F) = _
      rw [this]
    · cases hf with
      | nil =>
        unfold leftAlignedNodes tokensLoop at h1
        cases h1
        simpa [styledPieces] using hk.list
      | @cons w xs ws xss hw hws =>
        rw [leftAlignedNodes_eq (hk.splits hs) (measureOf (defaultOptions opts) text) _ _
          (found_all (List.Forall₂.cons hw hws)) (by simp) H hk.list] at h1
        cases h1
        rw [styledPieces_eq]
    · intro p hp
      rcases List.mem_append.mp hp with hp | hp
      · have := hH p hp
        exact ⟨this.1.imp_right (fun h => by simp [h]), this.2.imp_right (fun h => by simp [h])⟩
      · have := styledPieces_seqs _ _ p hp
        exact ⟨this.1.imp_right (fun h => by simp [h]), this.2.imp_right (fun h => by simp [h])⟩

theorem any_starts (c : AnyCall rt env dict opts text n l seqs tokens tks maxWidth W) :
    StartsWithPart (styledSyms (splitterOf env dict (defaultOptions opts)) tks) := by
  have hl := lossless (env := env) (dict := dict) c.sane
  obtain ⟨xs, h1, h2⟩ := c.first
  have h3 := spans_token hl (full xs) (full_ne h2) (full_text xs)
  rw [full_syms hl] at h3
  obtain ⟨y, ys, e⟩ := List.exists_cons_of_ne_nil h3.ne
  obtain ⟨u, hu⟩ := h3.head y (by rw [e]; rfl)
  cases tks with
  | nil => cases h1
  | cons t ts =>
    simp only [List.head?_cons, Option.some.injEq] at h1
    subst h1
    cases ts with
    | nil => exact ⟨u, ys, by show spansSyms _ _ = _; rw [e, hu]⟩
    | cons v vs => exact ⟨u, _, by show spansSyms _ _ ++ _ = _; rw [e, hu]; rfl⟩

/-- **Paragraphs of any words.** -/
theorem any_exact (c : AnyCall rt env dict opts text n l seqs tokens tks maxWidth W) (hpos : 0 < W) :
    let sp := splitterOf env dict (defaultOptions opts)
    let m := measureOf (defaultOptions opts) text
    (¬ Settable m W (okRatio (defaultOptions opts)) (styledSyms sp tks) ∧
      ∃ l', leftAlignUniform rt env l tokens maxWidth = .ok (none, l')) ∨
    (Settable m W (okRatio (defaultOptions opts)) (styledSyms sp tks) ∧
      ∃ ls, Layout (hyOf (new env dict opts)) (Acceptable m W (okRatio (defaultOptions opts))) false true (styledSyms sp tks) ls ∧
        ∃ lines l' H, leftAlignUniform rt env l tokens maxWidth = .ok (some lines, l') ∧
          (∀ p ∈ H ++ styledPieces sp tks, SeqsIn (seqs ++ seqsOf tks) p) ∧
          Wrapped (List.replicate n 0x20) ((H ++ styledPieces sp tks).map Piece.start) ((H ++ styledPieces sp tks).map Piece.stop)
            (styledPieces sp tks) 0 ls lines) := by
  intro sp m
  obtain ⟨H, hk, hH⟩ := any_keeps c.sane c.used
  have ho := hk.options
  have hu : Usual l.toOptions := ho ▸ usual_new c.sane
  have hhy : hyOf l = hyOf (new env dict opts) := by
    funext s; cases s <;> simp [hyOf, penOf, ho]
  have hok : okRatio l.toOptions = okRatio (defaultOptions opts) := by rw [ho]; rfl
  have hsy : syms (parBlocks sp tks) = styledSyms sp tks := (styledSyms_eq _ _).symm
  have hne : tokens ≠ [] := by
    rintro rfl
    obtain ⟨xs, h1, _⟩ := c.first
    have := c.found
    cases this
    cases h1
  have := align_exact_all (rt := rt) c.walks (hk.splits c.sane) (hk.setup c.sane) _ _ (found_all c.found) hne H hk.list
    maxWidth W (by rw [ho]; exact c.scaled) hpos (List.replicate n 0x20) (by rw [ho]; exact pads_new c.sane) hu.tol
    (hu.tame (hk.setup c.sane)) (by rw [hsy]; exact any_starts c) (by rw [hsy]; exact c.exact)
  rw [hsy, hok] at this
  rcases this with ⟨h1, h2⟩ | ⟨h1, segs, ls, h2, h3, h4, h5, h6, h7⟩
  · exact Or.inl ⟨h1, _, h2 _ _ (found_all c.found) hne rfl⟩
  · have hbt : ∀ x ∈ segs.flatten, BoxTag x := fun x hx => boxTag_par _ _ _ _ x (h5 x hx)
    have hst : ∀ x ∈ ls, StartsWithPart x.body := layout_bodies h2
    have hP : parPieces sp tks = styledPieces sp tks := (styledPieces_eq _ _).symm
    have h6' := h6 _ _ (found_all c.found) hne rfl
    rw [hP] at h6'
    have hbx : boxes segs.flatten = numbered l m H.length ((styledPieces sp tks).map Piece.text) := by
      rw [h4, boxes_parNodes, ← hP, parPieces_text]
    have hw := renderSegs_wrapped segs ls h3 hst hbt 0
      (AState.iterator (lv 0 (H ++ styledPieces sp tks))) (by simpa using hbx) (H := H) (g := List.replicate n 0x20)
    refine Or.inr ⟨h1, ls, hhy ▸ h2, _, _, H, h6', ?_, hw⟩
    intro p hp
    rcases List.mem_append.mp hp with hp | hp
    · have := hH p hp
      exact ⟨this.1.imp_right (fun h => by simp [h]), this.2.imp_right (fun h => by simp [h])⟩
    · have := styledPieces_seqs _ _ p hp
      exact ⟨this.1.imp_right (fun h => by simp [h]), this.2.imp_right (fun h => by simp [h])⟩

end

end Verif.Proofs.LB
