import Verif.Model.Linebreak
import Verif.Proofs.Attributes
import Verif.Spec.Layout
import Verif.Spec.Styled
import Mathlib.Data.List.Forall2

/-! # The nodes of a paragraph -/

namespace Verif.Proofs.LB
open Verif.Go Verif.Model Verif.Model.LB Verif.Spec Verif.Spec.LB

variable {F : Type} [Arith F]

/-- The split functions of a line breaker. -/
structure Splits (env : Env) (l : LineBreaker F) (sp : Splitter) : Prop where
  marks : ∀ t, callSplit l.punctuator t = .ok (sp.marks t)
  isMark : ∀ t, isPunctuation env t = sp.isMark t
  hyphens : ∀ t, splitWord t = .ok (sp.hyphens t)
  isHyphen : ∀ t, isHyphen t = sp.isHyphen t
  syllables : l.wordBreak = true → ∀ t, callSplit l.hyphenator t = .ok (sp.syllables t)
  parts : l.wordBreak = true → ∀ t, sp.syllables t ≠ []
  breakWords : l.wordBreak = sp.breakWords
  short : l.minHyphenate = sp.short

/-! ## Blocks of nodes -/

/-- A block of nodes. -/
inductive Block where
  | box (t : List Rune) | mark (t : List Rune) | hard (t : List Rune) | soft | gap

/-- The symbols of a block. -/
def Block.syms : Block → List Sym
  | .box t => [.part t] | .mark t => [.part t, .mark] | .hard t => [.part t, .hard]
  | .soft => [.soft] | .gap => [.gap]

/-- The text of a block that has one. -/
def Block.text : Block → List (List Rune)
  | .box t => [t] | .mark t => [t] | .hard t => [t] | .soft => [] | .gap => []

/-- A node with the symbol it stands for, and the integral values of its width and stretch. -/
structure TN (F : Type) where
  node : Node F
  tag : Option Sym
  w : Int
  st : Int

def boxT (l : LineBreaker F) (m : Measure) (k : Nat) (t : List Rune) : TN F :=
  ⟨newBox (l.scale (l.measurer t)) t (some k), some (.part t), m.text t, 0⟩

/-- A box between a glue and a penalty. -/
def markT (l : LineBreaker F) (m : Measure) (k : Nat) (t : List Rune) (penalty : F) (s : Sym) : List (TN F) :=
  [⟨newPenalty zero infinity false, none, 0, 0⟩, ⟨newGlue zero l.glueStretch zero, none, 0, 6⟩,
    boxT l m k t, ⟨newPenalty zero penalty true, some s, 0, 0⟩,
    ⟨newGlue zero (Arith.neg l.glueStretch) zero, none, 0, -6⟩]

def softT (l : LineBreaker F) (m : Measure) : List (TN F) :=
  if l.renderHyphens then
    [⟨newPenalty zero infinity false, none, 0, 0⟩, ⟨newGlue zero l.glueStretch zero, none, 0, 6⟩,
      ⟨newPenalty l.hyphenWidth l.hyphenPenalty true, some .soft, m.hyphen, 0⟩,
      ⟨newGlue zero (Arith.neg l.glueStretch) zero, none, 0, -6⟩]
  else [⟨newPenalty zero l.hyphenPenalty true, some .soft, 0, 0⟩]

def gapT (l : LineBreaker F) (m : Measure) : List (TN F) :=
  [⟨newGlue zero l.glueStretch zero, none, 0, 6⟩, ⟨newPenalty zero zero false, none, 0, 0⟩,
    ⟨newGlue l.spaceWidth (Arith.neg l.glueStretch) zero, some .gap, m.space, -6⟩]

def finT : List (TN F) :=
  [⟨newGlue zero infinity zero, none, 0, 10000⟩, ⟨newPenalty zero minusInfinity true, none, 0, 0⟩]

/-- The nodes of a block, with the renderer number `k`. -/
def Block.tn (l : LineBreaker F) (m : Measure) (k : Nat) : Block → List (TN F)
  | .box t => [boxT l m k t]
  | .mark t => markT l m k t l.punctuationPenalty .mark
  | .hard t => markT l m k t l.hardHyphenPenalty .hard
  | .soft => softT l m
  | .gap => gapT l m

/-- The nodes of blocks, with renderers numbered from `k` on. -/
def tns (l : LineBreaker F) (m : Measure) : Nat → List Block → List (TN F)
  | _, [] => []
  | k, b :: rest => b.tn l m k ++ tns l m (k + b.text.length) rest

/-- The nodes proper. -/
def nds (ts : List (TN F)) : List (Node F) := ts.map TN.node

/-- The texts of blocks. -/
def texts (bs : List Block) : List (List Rune) := bs.flatMap Block.text

/-- The symbols of blocks. -/
def syms (bs : List Block) : List Sym := bs.flatMap Block.syms

theorem tns_append (l : LineBreaker F) (m : Measure) (k : Nat) (a b : List Block) :
    tns l m k (a ++ b) = tns l m k a ++ tns l m (k + (texts a).length) b := by
  induction a generalizing k with
  | nil => simp [tns, texts]
  | cons x xs ih => simp [tns, texts, ih, Nat.add_assoc]

theorem texts_append (a b : List Block) : texts (a ++ b) = texts a ++ texts b := by simp [texts]

theorem syms_append (a b : List Block) : syms (a ++ b) = syms a ++ syms b := by simp [syms]

omit [Arith F] in
theorem nds_append (a b : List (TN F)) : nds (a ++ b) = nds a ++ nds b := by simp [nds]

/-! ## Blocks of a text -/

def wordBlocks (sp : Splitter) (w : List Rune) : List Block :=
  if sp.isHyphen w then [.hard w] else ((sp.syllables w).map Block.box).intersperse .soft

def chunkBlocks (sp : Splitter) (p : List Rune) : List Block :=
  if sp.isMark p then [.mark p]
  else if sp.breakWords = false ∨ (p.length : Int) ≤ sp.short then [.box p]
  else (sp.hyphens p).flatMap (wordBlocks sp)

def tokenBlocks (sp : Splitter) (t : List Rune) : List Block := (sp.marks t).flatMap (chunkBlocks sp)

def paraBlocks (sp : Splitter) : List (List Rune) → List Block
  | [] => []
  | [t] => tokenBlocks sp t
  | t :: rest => tokenBlocks sp t ++ .gap :: paraBlocks sp rest

theorem syms_intersperse (ps : List (List Rune)) :
    syms ((ps.map Block.box).intersperse .soft) = (ps.map Sym.part).intersperse .soft := by
  induction ps with
  | nil => rfl
  | cons p ps ih =>
    cases ps with
    | nil => rfl
    | cons q ps => 
      simp only [List.map_cons, List.intersperse_cons_cons] at ih ⊢
      simp only [syms, List.flatMap_cons, Block.syms] at ih ⊢
      simp [ih]

theorem syms_wordBlocks (sp : Splitter) (w : List Rune) : syms (wordBlocks sp w) = wordSyms sp w := by
  unfold wordBlocks wordSyms
  split
  · rfl
  · exact syms_intersperse _

theorem syms_flatMap {α : Type} (f : α → List Block) (xs : List α) :
    syms (xs.flatMap f) = xs.flatMap (fun x => syms (f x)) := by
  induction xs with
  | nil => rfl
  | cons x xs ih => simp [syms_append, ih]

theorem syms_chunkBlocks (sp : Splitter) (p : List Rune) : syms (chunkBlocks sp p) = chunkSyms sp p := by
  unfold chunkBlocks chunkSyms
  split
  · rfl
  · split
    · rfl
    · rw [syms_flatMap]; simp only [syms_wordBlocks]

theorem syms_tokenBlocks (sp : Splitter) (t : List Rune) : syms (tokenBlocks sp t) = tokenSyms sp t := by
  unfold tokenBlocks tokenSyms
  rw [syms_flatMap]; simp only [syms_chunkBlocks]

theorem syms_paraBlocks (sp : Splitter) (ts : List (List Rune)) : syms (paraBlocks sp ts) = paraSyms sp ts := by
  induction ts with
  | nil => rfl
  | cons t ts ih =>
    cases ts with
    | nil => exact syms_tokenBlocks sp t
    | cons u us =>
      simp only [paraBlocks, paraSyms, syms_append, syms_tokenBlocks]
      rw [← ih]; simp [syms, Block.syms]

/-! ## The nodes built -/

/-- The pieces of a text: the first one opens the style. -/
def openPieces (started : Bool) (start : List Rune) : List (List Rune) → List Piece
  | [] => []
  | t :: rest => ⟨t, if started then [] else start, []⟩ :: rest.map (fun t => ⟨t, [], []⟩)

theorem openPieces_append (b : Bool) (start : List Rune) (x y : List (List Rune)) :
    openPieces b start (x ++ y) = openPieces b start x ++ openPieces (b || !x.isEmpty) start y := by
  cases x with
  | nil => simp [openPieces]
  | cons a x => cases y <;> simp [openPieces]

theorem openPieces_length (b : Bool) (start : List Rune) (x : List (List Rune)) :
    (openPieces b start x).length = x.length := by cases x <;> simp [openPieces]

/-- The state of a token after some texts. -/
def TokState.after (s : TokState) (L : List Piece) (x : List (List Rune)) : TokState :=
  { s with isStarted := s.isStarted || !x.isEmpty,
           current := if x.isEmpty then s.current else some (L.length + x.length - 1),
           list := lv 0 (L ++ openPieces s.isStarted s.start x) }

theorem after_nil (s : TokState) (L : List Piece) (h : s.list = lv 0 L) : TokState.after s L [] = s := by
  cases s; simp_all [TokState.after, openPieces]

theorem after_append (s : TokState) (L : List Piece) (x y : List (List Rune)) :
    TokState.after (TokState.after s L x) (L ++ openPieces s.isStarted s.start x) y =
      TokState.after s L (x ++ y) := by
  cases x with
  | nil => cases y <;> simp [TokState.after, openPieces]
  | cons a x =>
    cases y with
    | nil => simp [TokState.after, openPieces]
    | cons c y => simp [TokState.after, openPieces]; omega

theorem push_after (s : TokState) (L : List Piece) (h : s.list = lv 0 L) (t : List Rune) :
    s.push t = TokState.after s L [t] := by
  cases s with
  | mk b cur start stop list =>
    simp only at h
    subst h
    cases b <;> simp [TokState.push, TokState.after, openPieces, push_lv, Attribute.new]

/-- What a loop that builds nodes returns: the nodes of the blocks, and the state after their texts. -/
def Builds (l : LineBreaker F) (m : Measure) (s : TokState) (L : List Piece) (bs : List Block)
    (r : List (Node F) × TokState) : Prop :=
  r = (nds (tns l m L.length bs), TokState.after s L (texts bs))

theorem Builds.append {l : LineBreaker F} {m : Measure} {s : TokState} {L : List Piece} {a b : List Block}
    {r q : List (Node F) × TokState} (h1 : Builds l m s L a r)
    (h2 : Builds l m r.2 (L ++ openPieces s.isStarted s.start (texts a)) b q) :
    Builds l m s L (a ++ b) (r.1 ++ q.1, q.2) := by
  unfold Builds at *
  subst h1
  rw [h2]
  simp only [after_append, texts_append, tns_append, nds_append, List.length_append, openPieces_length]

theorem after_list (s : TokState) (L : List Piece) (x : List (List Rune)) :
    (TokState.after s L x).list = lv 0 (L ++ openPieces s.isStarted s.start x) := rfl

theorem builds_mark (l : LineBreaker F) (m : Measure) (s : TokState) (L : List Piece) (h : s.list = lv 0 L)
    (t : List Rune) : Builds l m s L [.mark t] (markNodes l l.punctuationPenalty t s) := by
  unfold Builds
  simp only [markNodes, push_after s L h]
  simp [tns, Block.tn, markT, nds, boxT, TokState.box, TokState.after, texts, Block.text]

theorem builds_hard (l : LineBreaker F) (m : Measure) (s : TokState) (L : List Piece) (h : s.list = lv 0 L)
    (t : List Rune) : Builds l m s L [.hard t] (markNodes l l.hardHyphenPenalty t s) := by
  unfold Builds
  simp only [markNodes, push_after s L h]
  simp [tns, Block.tn, markT, nds, boxT, TokState.box, TokState.after, texts, Block.text]

theorem builds_box (l : LineBreaker F) (m : Measure) (s : TokState) (L : List Piece) (h : s.list = lv 0 L)
    (t : List Rune) : Builds l m s L [.box t] ([(s.push t).box l t], s.push t) := by
  unfold Builds
  simp only [push_after s L h]
  simp [tns, Block.tn, nds, boxT, TokState.box, TokState.after, texts, Block.text]

theorem nds_softT (l : LineBreaker F) (m : Measure) : nds (softT l m) = pushHyphen l := by
  unfold softT pushHyphen
  split <;> rfl

theorem builds_soft (l : LineBreaker F) (m : Measure) (s : TokState) (L : List Piece) (h : s.list = lv 0 L) :
    Builds l m s L [.soft] (pushHyphen l, s) := by
  unfold Builds
  simp only [tns, Block.tn, texts, Block.text, List.flatMap_cons, List.flatMap_nil, List.append_nil, after_nil s L h,
    nds_softT]

theorem builds_nil (l : LineBreaker F) (m : Measure) (s : TokState) (L : List Piece) (h : s.list = lv 0 L) :
    Builds l m s L [] ([], s) := by
  unfold Builds
  simp only [tns, texts, List.flatMap_nil, after_nil s L h]; rfl

/-- Each text of a loop, followed by a soft hyphen. -/
theorem builds_softLoop (l : LineBreaker F) (m : Measure) (parts : List (List Rune)) (s : TokState)
    (L : List Piece) (h : s.list = lv 0 L) :
    Builds l m s L (parts.flatMap (fun t => [.box t, .soft])) (softLoop l parts s) := by
  induction parts generalizing s L with
  | nil => exact builds_nil l m s L h
  | cons t rest ih =>
    have h1 := builds_box l m s L h t
    have hl : (s.push t).list = lv 0 (L ++ openPieces s.isStarted s.start (texts [.box t])) := by
      rw [push_after s L h]; rfl
    have h2 := h1.append (builds_soft l m (s.push t) _ hl)
    have hl2 : (s.push t).list = lv 0 (L ++ openPieces s.isStarted s.start (texts ([.box t] ++ [.soft]))) := by
      rw [hl]; simp [texts, Block.text]
    have h3 := h2.append (ih (s.push t) _ hl2)
    simpa [softLoop] using h3

theorem flatMap_soft (ps : List (List Rune)) (h : ps ≠ []) :
    (ps.map Block.box).intersperse .soft =
      ps.dropLast.flatMap (fun t => [.box t, .soft]) ++ [.box (ps.getLast h)] := by
  induction ps with
  | nil => exact absurd rfl h
  | cons p ps ih =>
    cases ps with
    | nil => rfl
    | cons q ps =>
      have := ih (by simp)
      simp only [List.map_cons, List.intersperse_cons_cons] at this ⊢
      rw [this]; simp

theorem builds_word {env : Env} {l : LineBreaker F} {sp : Splitter} (hs : Splits env l sp)
    (hw : l.wordBreak = true) (m : Measure) (w : List Rune) (s : TokState) (L : List Piece) (h : s.list = lv 0 L) :
    ∃ r, wordNodes l w s = .ok r ∧ Builds l m s L (wordBlocks sp w) r := by
  unfold wordNodes wordBlocks
  rw [hs.isHyphen]
  by_cases hh : sp.isHyphen w = true
  · simp only [hh, if_true]
    exact ⟨_, rfl, builds_hard l m s L h w⟩
  · simp only [hh]
    rw [hs.syllables hw]
    have hne := hs.parts hw w
    obtain ⟨n, hn⟩ : ∃ n, (sp.syllables w).length = n + 1 := by
      cases hc : sp.syllables w with
      | nil => exact absurd hc hne
      | cons a b => exact ⟨_, rfl⟩
    have h1 : slice (sp.syllables w) 0 (((sp.syllables w).length : Int) - 1) = .ok (sp.syllables w).dropLast := by
      have e : (((sp.syllables w).length : Int) - 1) = ((n : Nat) : Int) := by omega
      rw [e, show (0 : Int) = ((0 : Nat) : Int) by rfl, slice_ok (by omega) (by omega)]
      simp [List.dropLast_eq_take, hn]
    have h2 : index (sp.syllables w) (((sp.syllables w).length : Int) - 1) = .ok ((sp.syllables w).getLast hne) := by
      unfold index
      rw [if_neg (by omega)]
      have e : (((sp.syllables w).length : Int) - 1).toNat = (sp.syllables w).length - 1 := by omega
      rw [e, ← List.getLast?_eq_getElem?, List.getLast?_eq_some_getLast hne]
    simp only [ok_bind, h1, h2, pure_eq_ok, Bool.false_eq_true, if_false]
    refine ⟨_, rfl, ?_⟩
    rw [flatMap_soft _ hne]
    have g1 := builds_softLoop l m (sp.syllables w).dropLast s L h
    refine g1.append (builds_box l m _ _ ?_ _)
    have := congrArg (fun r => r.2.list) g1
    simpa [after_list] using this

theorem Builds.list {l : LineBreaker F} {m : Measure} {s : TokState} {L : List Piece} {bs : List Block}
    {r : List (Node F) × TokState} (h : Builds l m s L bs r) :
    r.2.list = lv 0 (L ++ openPieces s.isStarted s.start (texts bs)) := by
  unfold Builds at h; subst h; rfl

theorem builds_words {env : Env} {l : LineBreaker F} {sp : Splitter} (hs : Splits env l sp)
    (hw : l.wordBreak = true) (m : Measure) (ws : List (List Rune)) (s : TokState) (L : List Piece)
    (h : s.list = lv 0 L) :
    ∃ r, wordsLoop l ws s = .ok r ∧ Builds l m s L (ws.flatMap (wordBlocks sp)) r := by
  induction ws generalizing s L with
  | nil => exact ⟨_, rfl, builds_nil l m s L h⟩
  | cons w ws ih =>
    obtain ⟨r, h1, h2⟩ := builds_word hs hw m w s L h
    obtain ⟨q, h3, h4⟩ := ih r.2 _ h2.list
    exact ⟨(r.1 ++ q.1, q.2), by simp [wordsLoop, h1, h3], h2.append h4⟩

theorem builds_part {env : Env} {l : LineBreaker F} {sp : Splitter} (hs : Splits env l sp)
    (m : Measure) (p : List Rune) (s : TokState) (L : List Piece) (h : s.list = lv 0 L) :
    ∃ r, partNodes env l p s = .ok r ∧ Builds l m s L (chunkBlocks sp p) r := by
  unfold partNodes chunkBlocks
  rw [hs.isMark]
  by_cases hm : sp.isMark p = true
  · simp only [hm, if_true]
    exact ⟨_, rfl, builds_mark l m s L h p⟩
  · simp only [hm, Bool.false_eq_true, if_false]
    rw [hs.breakWords, hs.short]
    by_cases hc : sp.breakWords = false ∨ (p.length : Int) ≤ sp.short
    · rw [if_pos hc, if_pos (by rcases hc with hc | hc <;> simp [hc])]
      exact ⟨_, rfl, builds_box l m s L h p⟩
    · rw [if_neg hc, if_neg (by simpa using hc)]
      have hb : l.wordBreak = true := by
        rw [hs.breakWords]
        cases hx : sp.breakWords with
        | true => rfl
        | false => exact absurd (Or.inl hx) hc
      obtain ⟨r, h1, h2⟩ := builds_words hs hb m (sp.hyphens p) s L h
      exact ⟨r, by simp [hs.hyphens, h1], h2⟩

theorem builds_parts {env : Env} {l : LineBreaker F} {sp : Splitter} (hs : Splits env l sp)
    (m : Measure) (ps : List (List Rune)) (s : TokState) (L : List Piece) (h : s.list = lv 0 L) :
    ∃ r, partsLoop env l ps s = .ok r ∧ Builds l m s L (ps.flatMap (chunkBlocks sp)) r := by
  induction ps generalizing s L with
  | nil => exact ⟨_, rfl, builds_nil l m s L h⟩
  | cons w ws ih =>
    obtain ⟨r, h1, h2⟩ := builds_part hs m w s L h
    obtain ⟨q, h3, h4⟩ := ih r.2 _ h2.list
    exact ⟨(r.1 ++ q.1, q.2), by simp [partsLoop, h1, h3], h2.append h4⟩

/-! ## Stripped tokens -/

/-- The last piece closes the style. -/
def closePieces (stop : List Rune) : List Piece → List Piece
  | [] => []
  | [p] => [{ p with stop := stop }]
  | p :: q :: rest => p :: closePieces stop (q :: rest)

/-- The pieces of a span. -/
def spanPieces (sp : Splitter) (x : Span) : List Piece :=
  closePieces x.stop (openPieces false x.start (texts (tokenBlocks sp x.text)))

theorem closePieces_concat (stop : List Rune) (a : List Piece) (p : Piece) :
    closePieces stop (a ++ [p]) = a ++ [{ p with stop := stop }] := by
  induction a with
  | nil => rfl
  | cons x a ih =>
    cases a with
    | nil => rfl
    | cons y a => simpa [closePieces] using ih

theorem closePieces_length (stop : List Rune) (a : List Piece) : (closePieces stop a).length = a.length := by
  rcases List.eq_nil_or_concat a with rfl | ⟨q, p, rfl⟩
  · rfl
  · rw [List.concat_eq_append, closePieces_concat]; simp

theorem spanPieces_length (sp : Splitter) (x : Span) :
    (spanPieces sp x).length = (texts (tokenBlocks sp x.text)).length := by
  unfold spanPieces; rw [closePieces_length, openPieces_length]

theorem openPieces_stop (b : Bool) (start : List Rune) (x : List (List Rune)) :
    ∀ p ∈ openPieces b start x, p.stop = [] := by
  cases x with
  | nil => simp [openPieces]
  | cons a x => simp [openPieces]

/-- The attributes after a span. -/
theorem close_after (start stop : List Rune) (L : List Piece) (x : List (List Rune)) :
    (TokState.after ⟨false, none, start, stop, lv 0 L⟩ L x).close =
      lv 0 (L ++ closePieces stop (openPieces false start x)) := by
  rcases List.eq_nil_or_concat x with rfl | ⟨y, t, rfl⟩
  · simp [TokState.after, TokState.close, openPieces, closePieces]
  · rw [List.concat_eq_append]
    have hne : (y ++ [t]).isEmpty = false := by cases y <;> rfl
    obtain ⟨q, p, hq⟩ : ∃ q p, openPieces false start (y ++ [t]) = q ++ [p] := by
      rcases List.eq_nil_or_concat (openPieces false start (y ++ [t])) with e | ⟨q, p, e⟩
      · have := congrArg List.length e
        rw [openPieces_length] at this; simp at this
      · exact ⟨q, p, by rw [e, List.concat_eq_append]⟩
    have hp : p.stop = [] := openPieces_stop false start (y ++ [t]) p (by rw [hq]; simp)
    unfold TokState.close TokState.after
    simp only [hne, Bool.false_eq_true, if_false, Option.isNone_some, Bool.false_or, hq, closePieces_concat]
    by_cases hs : stop = []
    · subst hs
      rw [if_pos (by simp), ← hp]
    · rw [if_neg (by simpa using hs), ← List.append_assoc, setLastStop_lv, List.append_assoc]

/-- The span of a stripped token. -/
def spanOf (mem : List Rune) (t : Ansi.StrippedToken) : Span :=
  ⟨fieldRunes mem t.start, textRunes mem t.text, fieldRunes mem t.stop⟩

/-- The blocks of spans. -/
def spansBlocks (sp : Splitter) (xs : List Span) : List Block := xs.flatMap (fun x => tokenBlocks sp x.text)

/-- The pieces of spans. -/
def spansPieces (sp : Splitter) (xs : List Span) : List Piece := xs.flatMap (spanPieces sp)

theorem texts_flatMap {α : Type} (f : α → List Block) (xs : List α) :
    texts (xs.flatMap f) = xs.flatMap (fun x => texts (f x)) := by
  induction xs with
  | nil => rfl
  | cons x xs ih => simp [texts_append, ih]

theorem spansPieces_length (sp : Splitter) (xs : List Span) :
    (spansPieces sp xs).length = (texts (spansBlocks sp xs)).length := by
  induction xs with
  | nil => rfl
  | cons x xs ih =>
    have e1 : spansPieces sp (x :: xs) = spanPieces sp x ++ spansPieces sp xs := rfl
    have e2 : spansBlocks sp (x :: xs) = tokenBlocks sp x.text ++ spansBlocks sp xs := rfl
    rw [e1, e2, texts_append, List.length_append, List.length_append, spanPieces_length, ih]

theorem strippedLoop_eq {env : Env} {l : LineBreaker F} {sp : Splitter} (hs : Splits env l sp) (m : Measure)
    (mem : List Rune) (toks : List Ansi.StrippedToken) (L : List Piece) :
    strippedLoop env l mem toks (lv 0 L) =
      .ok (nds (tns l m L.length (spansBlocks sp (toks.map (spanOf mem)))),
        lv 0 (L ++ spansPieces sp (toks.map (spanOf mem)))) := by
  induction toks generalizing L with
  | nil => simp [strippedLoop, spansBlocks, spansPieces, tns, nds]
  | cons t toks ih =>
    unfold strippedLoop
    rw [hs.marks]
    obtain ⟨r, h1, h2⟩ := builds_parts hs m (sp.marks (textRunes mem t.text))
      ⟨false, none, fieldRunes mem t.start, fieldRunes mem t.stop, lv 0 L⟩ L rfl
    simp only [ok_bind, h1]
    unfold Builds at h2
    subst h2
    have e1 : spansBlocks sp ((t :: toks).map (spanOf mem)) =
        tokenBlocks sp (textRunes mem t.text) ++ spansBlocks sp (toks.map (spanOf mem)) := rfl
    have e2 : spansPieces sp ((t :: toks).map (spanOf mem)) =
        spanPieces sp (spanOf mem t) ++ spansPieces sp (toks.map (spanOf mem)) := rfl
    rw [close_after]
    have e3 : closePieces (fieldRunes mem t.stop) (openPieces false (fieldRunes mem t.start)
        (texts (List.flatMap (chunkBlocks sp) (sp.marks (textRunes mem t.text))))) = spanPieces sp (spanOf mem t) := rfl
    rw [e3, ih]
    simp only [ok_bind, pure_eq_ok]
    rw [e1, e2, tns_append, nds_append, List.length_append, spanPieces_length, List.append_assoc]
    rfl

/-- A token is stripped into spans. -/
def Strips (rt : Runtime) (env : Env) (token : List Rune) (xs : List Span) : Prop :=
  ∃ toks mem, Ansi.stripToken env (token ++ rt.spare token) ⟨0, token.length⟩ = .ok (toks, mem) ∧
    toks.map (spanOf mem) = xs

theorem boxNodes_eq {rt : Runtime} {env : Env} {l : LineBreaker F} {sp : Splitter} (hs : Splits env l sp)
    (m : Measure) (token : List Rune) (xs : List Span) (h : Strips rt env token xs) (L : List Piece) :
    boxNodes rt env l token (lv 0 L) =
      .ok (nds (tns l m L.length (spansBlocks sp xs)), lv 0 (L ++ spansPieces sp xs)) := by
  obtain ⟨toks, mem, h1, h2⟩ := h
  unfold boxNodes
  rw [h1, ← h2]
  exact strippedLoop_eq hs m mem toks L

/-- The blocks of a paragraph of stripped tokens. -/
def parBlocks (sp : Splitter) : List (List Span) → List Block
  | [] => []
  | [t] => spansBlocks sp t
  | t :: rest => spansBlocks sp t ++ .gap :: parBlocks sp rest

/-- The pieces of a paragraph. -/
def parPieces (sp : Splitter) (tks : List (List Span)) : List Piece := tks.flatMap (spansPieces sp)

theorem parPieces_length (sp : Splitter) (tks : List (List Span)) :
    (parPieces sp tks).length = (texts (parBlocks sp tks)).length := by
  induction tks with
  | nil => rfl
  | cons t tks ih =>
    have e1 : parPieces sp (t :: tks) = spansPieces sp t ++ parPieces sp tks := rfl
    rw [e1, List.length_append, ih, spansPieces_length]
    cases tks with
    | nil => simp [parBlocks, texts]
    | cons u us =>
      have : texts (parBlocks sp (t :: u :: us)) = texts (spansBlocks sp t) ++ texts (parBlocks sp (u :: us)) := by
        simp [parBlocks, texts_append]
        simp [texts, Block.text]
      rw [this, List.length_append]

/-- The nodes of a paragraph. -/
def parNodes (l : LineBreaker F) (m : Measure) (k : Nat) (bs : List Block) : List (TN F) := tns l m k bs ++ finT

theorem tokensLoop_eq {rt : Runtime} {env : Env} {l : LineBreaker F} {sp : Splitter} (hs : Splits env l sp)
    (m : Measure) (tokens : List (List Rune)) (tks : List (List Span))
    (h : List.Forall₂ (Strips rt env) tokens tks) (hne : tokens ≠ []) (L : List Piece) :
    tokensLoop rt env l tokens (lv 0 L) =
      .ok (nds (parNodes l m L.length (parBlocks sp tks)), lv 0 (L ++ parPieces sp tks)) := by
  induction h generalizing L with
  | nil => exact absurd rfl hne
  | @cons w xs ws ys h1 h2 ih =>
    cases h2 with
    | nil =>
      simp only [tokensLoop, boxNodes_eq hs m w xs h1 L, ok_bind, pure_eq_ok, parNodes, nds_append, parBlocks,
        parPieces, List.flatMap_cons, List.flatMap_nil, List.append_nil]
      rfl
    | @cons v vs zs zss h3 h4 =>
      simp only [tokensLoop, boxNodes_eq hs m w xs h1 L, ok_bind, pure_eq_ok] at ih ⊢
      rw [ih (by simp) (L ++ spansPieces sp xs)]
      simp only [ok_bind]
      congr 1
      ext1
      · simp only [parNodes, parBlocks, tns_append, nds_append, List.length_append, spansPieces_length, tns,
          Block.tn, List.append_assoc]
        rfl
      · simp [parPieces]

theorem leftAlignedNodes_eq {rt : Runtime} {env : Env} {l : LineBreaker F} {sp : Splitter} (hs : Splits env l sp)
    (m : Measure) (tokens : List (List Rune)) (tks : List (List Span))
    (h : List.Forall₂ (Strips rt env) tokens tks) (hne : tokens ≠ []) (L : List Piece) (hL : l.attrList = lv 0 L) :
    leftAlignedNodes rt env l tokens =
      .ok (nds (parNodes l m L.length (parBlocks sp tks)), lv 0 (L ++ parPieces sp tks)) := by
  unfold leftAlignedNodes
  rw [hL]
  exact tokensLoop_eq hs m tokens tks h hne L

end Verif.Proofs.LB
