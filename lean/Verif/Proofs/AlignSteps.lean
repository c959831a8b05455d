import Verif.Model.AlignSteps
import Verif.Proofs.AnsiSize
import Verif.Proofs.HyphSteps
import Verif.Proofs.Kept
import Verif.Proofs.LBAny

/-! # Steps of a call of LeftAlignUniform -/

namespace Verif.Proofs
open Verif.Go Verif.Model Verif.Model.LB Verif.Spec

/-! ## The same results -/

theorem breakAtLoopC_res (f : Rune → Bool) (word : List Rune) : ∀ (rest : List Rune) (i p : Nat) (r : List (List Rune)),
    (breakAtLoopC f word rest i p r).res = breakAtLoop f word rest i p r
  | [], _, _, _ => rfl
  | x :: rest, i, p, r => by
    have ih := breakAtLoopC_res f word rest
    unfold breakAtLoopC breakAtLoop
    simp only [Counted.round]
    split
    · split
      · rw [andThen_res]
        simp only [Counted.of, ih]
      · exact ih _ _ _
    · exact ih _ _ _

theorem breakAtFuncC_res (word : List Rune) (f : Rune → Bool) : (breakAtFuncC word f).res = breakAtFunc word f := by
  unfold breakAtFuncC breakAtFunc
  rw [andThen_res, breakAtLoopC_res]
  cases breakAtLoop f word word 0 0 [] <;> rfl

theorem breakAtLoopC_steps (f : Rune → Bool) (word : List Rune) : ∀ (rest : List Rune) (i p : Nat) (r : List (List Rune)),
    (breakAtLoopC f word rest i p r).steps ≤ rest.length
  | [], _, _, _ => Nat.le_refl _
  | x :: rest, i, p, r => by
    have ih := breakAtLoopC_steps f word rest
    unfold breakAtLoopC
    simp only [Counted.round, List.length_cons]
    split
    · split
      · unfold Counted.andThen
        simp only [Counted.of]
        cases slice word p i with
        | error e => exact Nat.succ_le_succ (Nat.zero_le _)
        | ok part =>
          have := ih (i + 1) (i + 1) (r ++ [part] ++ [[x]])
          simp only
          omega
      · exact Nat.succ_le_succ (ih _ _ _)
    · exact Nat.succ_le_succ (ih _ _ _)

theorem breakAtFuncC_steps (word : List Rune) (f : Rune → Bool) : (breakAtFuncC word f).steps ≤ word.length := by
  have := breakAtLoopC_steps f word word 0 0 []
  unfold breakAtFuncC Counted.andThen Counted.of
  cases (breakAtLoopC f word word 0 0 []).res <;> exact this

namespace LB
open Verif.Spec.Ansi Verif.Spec.LB
open Verif.Props (C07_splitWord C04_punctuator_partition C05_punctuator_unique_split C09_hyphenator_partition C10_no_empty_part)

section
variable {F : Type} [Arith F] {pc hc : SplitFuncC} {l : LineBreaker F}

theorem wordNodesC_res (hh : l.wordBreak = true → ∀ w, (hc w).res = callSplit l.hyphenator w) (hb : l.wordBreak = true)
    (w : List Rune) (s : TokState) : (wordNodesC hc l w s).res = wordNodes l w s := by
  unfold wordNodesC wordNodes
  split
  · rfl
  · rw [andThen_res, hh hb]
    congr 1
    funext hy
    rw [andThen_res]
    rfl

theorem wordsLoopC_res (hh : l.wordBreak = true → ∀ w, (hc w).res = callSplit l.hyphenator w) (hb : l.wordBreak = true) :
    ∀ (ws : List (List Rune)) (s : TokState), (wordsLoopC hc l ws s).res = wordsLoop l ws s
  | [], _ => rfl
  | w :: ws, s => by
    unfold wordsLoopC wordsLoop
    simp only [Counted.round]
    rw [andThen_res, wordNodesC_res hh hb]
    congr 1
    funext p
    rw [andThen_res, wordsLoopC_res hh hb ws]
    rfl

theorem partNodesC_res (hh : l.wordBreak = true → ∀ w, (hc w).res = callSplit l.hyphenator w) (env : Env)
    (t : List Rune) (s : TokState) : (partNodesC hc env l t s).res = partNodes env l t s := by
  unfold partNodesC partNodes
  split
  · rfl
  · split
    · rfl
    · rename_i hb
      have hb : l.wordBreak = true := by
        cases h : l.wordBreak with
        | true => rfl
        | false => rw [h] at hb; simp at hb
      rw [andThen_res, breakAtFuncC_res]
      unfold splitWord
      congr 1
      funext ws
      exact wordsLoopC_res hh hb ws s

theorem partsLoopC_res (hh : l.wordBreak = true → ∀ w, (hc w).res = callSplit l.hyphenator w) (env : Env) :
    ∀ (ts : List (List Rune)) (s : TokState), (partsLoopC hc env l ts s).res = partsLoop env l ts s
  | [], _ => rfl
  | t :: ts, s => by
    unfold partsLoopC partsLoop
    simp only [Counted.round]
    rw [andThen_res, partNodesC_res hh]
    congr 1
    funext p
    rw [andThen_res, partsLoopC_res hh env ts]
    rfl

theorem strippedLoopC_res (hp : ∀ w, (pc w).res = callSplit l.punctuator w)
    (hh : l.wordBreak = true → ∀ w, (hc w).res = callSplit l.hyphenator w) (env : Env) (mem : List Rune) :
    ∀ (ts : List Ansi.StrippedToken) (a : AState), (strippedLoopC pc hc env l mem ts a).res = strippedLoop env l mem ts a
  | [], _ => rfl
  | t :: ts, a => by
    unfold strippedLoopC strippedLoop
    simp only [Counted.round]
    rw [andThen_res, hp]
    congr 1
    funext parts
    rw [andThen_res, partsLoopC_res hh]
    congr 1
    funext p
    rw [andThen_res, strippedLoopC_res hp hh env mem ts]
    rfl

theorem boxNodesC_res (hp : ∀ w, (pc w).res = callSplit l.punctuator w)
    (hh : l.wordBreak = true → ∀ w, (hc w).res = callSplit l.hyphenator w) (rt : Runtime) (env : Env) (t : List Rune)
    (a : AState) : (boxNodesC pc hc rt env l t a).res = boxNodes rt env l t a := by
  unfold boxNodesC boxNodes
  rw [andThen_res, Ansi.stripTokenC_res]
  congr 1
  funext r
  exact strippedLoopC_res hp hh env _ _ _

theorem tokensLoopC_res (hp : ∀ w, (pc w).res = callSplit l.punctuator w)
    (hh : l.wordBreak = true → ∀ w, (hc w).res = callSplit l.hyphenator w) (rt : Runtime) (env : Env) :
    ∀ (ts : List (List Rune)) (a : AState), (tokensLoopC pc hc rt env l ts a).res = tokensLoop rt env l ts a
  | [], _ => rfl
  | [t], a => by
    unfold tokensLoopC tokensLoop
    simp only [Counted.round]
    rw [andThen_res, boxNodesC_res hp hh]
    rfl
  | t :: u :: ts, a => by
    unfold tokensLoopC tokensLoop
    simp only [Counted.round]
    rw [andThen_res, boxNodesC_res hp hh]
    congr 1
    funext p
    rw [andThen_res, tokensLoopC_res hp hh rt env (u :: ts)]
    rfl

theorem alignC_res (hp : ∀ w, (pc w).res = callSplit l.punctuator w)
    (hh : l.wordBreak = true → ∀ w, (hc w).res = callSplit l.hyphenator w) (rt : Runtime) (env : Env)
    (tokens : List (List Rune)) (maxWidth : F) :
    (alignC pc hc rt env l tokens maxWidth).res = leftAlignUniform rt env l tokens maxWidth := by
  unfold alignC leftAlignUniform leftAlignedNodes
  rw [andThen_res, tokensLoopC_res hp hh]
  congr 1
  funext p
  rw [andThen_res, breakPointsC_res]
  congr 1
  funext b
  cases b with
  | none => rfl
  | some chain =>
    simp only
    rw [andThen_res, renderC_res]
    rfl

/-! ## The number of rounds -/

theorem andThen_le {α β : Type} {x : Counted α} {f : α → Counted β} {a b : Nat} (h1 : x.steps ≤ a)
    (h2 : ∀ y, x.res = .ok y → (f y).steps ≤ b) : (x.andThen f).steps ≤ a + b := by
  unfold Counted.andThen
  cases h : x.res with
  | error e => simp only; omega
  | ok y => have := h2 y h; simp only; omega

/-- What is needed of split functions on texts of at most `N` runes: they lose nothing, give no empty part, and make at
most `G` rounds for each rune. -/
def Tame (N G : Nat) (f : SplitFuncC) : Prop :=
  ∀ w, w ≠ [] → w.length ≤ N → (f w).steps ≤ G * w.length ∧
    ∀ parts, (f w).res = .ok parts → parts.flatten = w ∧ [] ∉ parts

theorem length_le_flatten : ∀ ps : List (List Rune), [] ∉ ps → ps.length ≤ ps.flatten.length
  | [], _ => Nat.le_refl _
  | p :: ps, h => by
    rw [List.mem_cons, not_or] at h
    have := length_le_flatten ps h.2
    have := List.length_pos_iff.mpr (fun e => h.1 e.symm : p ≠ [])
    simp only [List.length_cons, List.flatten_cons, List.length_append]
    omega

theorem slice_le {α : Type} {s p : List α} {i j : Int} (h : slice s i j = .ok p) : p.length ≤ s.length := by
  unfold slice at h
  split at h
  · cases h; simp only [List.length_take, List.length_drop]; omega
  · cases h

theorem wordNodesC_steps {N G : Nat} (ht : Tame N G hc) (w : List Rune) (hw : w ≠ []) (hN : w.length ≤ N) (s : TokState) :
    (wordNodesC hc l w s).steps ≤ G * w.length + w.length := by
  unfold wordNodesC
  split
  · exact Nat.zero_le _
  · obtain ⟨h1, h2⟩ := ht w hw hN
    refine andThen_le h1 fun hy hhy => ?_
    obtain ⟨h3, h4⟩ := h2 hy hhy
    have h5 := length_le_flatten hy h4
    rw [h3] at h5
    have := andThen_le (x := Counted.of (slice hy 0 ((hy.length : Int) - 1))) (a := 0) (b := w.length)
      (f := fun parts => ⟨parts.length, do
          let p := softLoop l parts s
          let lastPart ← index hy ((hy.length : Int) - 1)
          let s := p.2.push lastPart
          return (p.1 ++ [s.box l lastPart], s)⟩) (Nat.le_refl _) (fun parts hparts => (slice_le hparts).trans h5)
    rw [Nat.zero_add] at this
    exact this

theorem mul_add_split (a b c : Nat) : a * (b + c) = a * b + a * c := Nat.mul_add a b c

theorem wordsLoopC_steps {N G : Nat} (ht : Tame N G hc) : ∀ (ws : List (List Rune)) (s : TokState), [] ∉ ws →
    ws.flatten.length ≤ N → (wordsLoopC hc l ws s).steps ≤ (G + 2) * ws.flatten.length
  | [], _, _, _ => Nat.zero_le _
  | w :: ws, s, hne, hN => by
    rw [List.mem_cons, not_or] at hne
    have hw : w ≠ [] := fun e => hne.1 e.symm
    have hpos := List.length_pos_iff.mpr hw
    rw [List.flatten_cons, List.length_append] at hN ⊢
    unfold wordsLoopC
    simp only [Counted.round]
    have h1 := andThen_le (wordNodesC_steps (l := l) ht w hw (by omega) s)
      (f := fun p => (wordsLoopC hc l ws p.2).andThen fun q => .of (.ok (p.1 ++ q.1, q.2)))
      (b := (G + 2) * ws.flatten.length + 0)
      (fun p _ => andThen_le (wordsLoopC_steps ht ws p.2 hne.2 (by omega)) (fun _ _ => Nat.le_refl _))
    rw [Nat.mul_add, Nat.add_mul G 2 w.length]
    omega

theorem partNodesC_steps {N G : Nat} (ht : Tame N G hc) (env : Env) (t : List Rune) (hN : t.length ≤ N) (s : TokState) :
    (partNodesC hc env l t s).steps ≤ (G + 3) * t.length := by
  unfold partNodesC
  split
  · exact Nat.zero_le _
  · split
    · exact Nat.zero_le _
    · have h1 := andThen_le (breakAtFuncC_steps t isHyphenRune) (f := fun words => wordsLoopC hc l words s)
        (b := (G + 2) * t.length) (fun ws hws => by
          rw [breakAtFuncC_res] at hws
          obtain ⟨parts, h1, h2, h3, _⟩ := C07_splitWord t
          unfold splitWord at h1
          rw [h1] at hws
          cases hws
          have hm : [] ∉ ws := by
            intro hm
            rcases h3.kind _ hm with ⟨r, e, _⟩ | ⟨e, _⟩
            · cases e
            · exact e rfl
          have := wordsLoopC_steps (l := l) ht ws s hm (by rw [h2]; exact hN)
          rw [h2] at this
          exact this)
      rw [Nat.add_mul] at h1 ⊢
      omega

theorem partsLoopC_steps {N G : Nat} (ht : Tame N G hc) (env : Env) : ∀ (ts : List (List Rune)) (s : TokState), [] ∉ ts →
    ts.flatten.length ≤ N → (partsLoopC hc env l ts s).steps ≤ (G + 4) * ts.flatten.length
  | [], _, _, _ => Nat.zero_le _
  | t :: ts, s, hne, hN => by
    rw [List.mem_cons, not_or] at hne
    have hpos := List.length_pos_iff.mpr (fun e => hne.1 e.symm : t ≠ [])
    rw [List.flatten_cons, List.length_append] at hN ⊢
    unfold partsLoopC
    simp only [Counted.round]
    have h1 := andThen_le (partNodesC_steps (l := l) ht env t (by omega) s)
      (f := fun p => (partsLoopC hc env l ts p.2).andThen fun q => .of (.ok (p.1 ++ q.1, q.2)))
      (b := (G + 4) * ts.flatten.length + 0)
      (fun p _ => andThen_le (partsLoopC_steps ht env ts p.2 hne.2 (by omega)) (fun _ _ => Nat.le_refl _))
    rw [Nat.mul_add, Nat.add_mul G 4 t.length]
    rw [Nat.add_mul G 3 t.length] at h1
    omega

/-- The runes of the texts of results of StripToken. -/
def textSize (mem : List Rune) (ts : List Ansi.StrippedToken) : Nat := (ts.flatMap (fun t => textRunes mem t.text)).length

theorem strippedLoopC_steps {N G : Nat} (hp : Tame N 1 pc) (hp0 : (pc []).steps = 0 ∧ ∀ parts, (pc []).res = .ok parts → parts = [])
    (ht : Tame N G hc) (env : Env) (mem : List Rune) : ∀ (ts : List Ansi.StrippedToken) (a : AState),
    textSize mem ts ≤ N → (strippedLoopC pc hc env l mem ts a).steps ≤ ts.length + (G + 5) * textSize mem ts
  | [], _, _ => Nat.zero_le _
  | t :: ts, a, hN => by
    have e : textSize mem (t :: ts) = (textRunes mem t.text).length + textSize mem ts := by
      simp [textSize]
    rw [e] at hN ⊢
    have hpc : (pc (textRunes mem t.text)).steps ≤ (textRunes mem t.text).length ∧
        ∀ parts, (pc (textRunes mem t.text)).res = .ok parts → parts.flatten = textRunes mem t.text ∧ [] ∉ parts := by
      by_cases h0 : textRunes mem t.text = []
      · rw [h0, hp0.1]
        refine ⟨Nat.le_refl _, fun parts h => ?_⟩
        rw [hp0.2 parts h]
        exact ⟨rfl, by simp⟩
      · have := hp _ h0 (by omega)
        rw [Nat.one_mul] at this
        exact this
    unfold strippedLoopC
    simp only [Counted.round, List.length_cons]
    have h1 := andThen_le hpc.1 (f := fun parts =>
      (partsLoopC hc env l parts ⟨false, none, fieldRunes mem t.start, fieldRunes mem t.stop, a⟩).andThen fun p =>
        (strippedLoopC pc hc env l mem ts p.2.close).andThen fun q => .of (.ok (p.1 ++ q.1, q.2)))
      (b := (G + 4) * (textRunes mem t.text).length + (ts.length + (G + 5) * textSize mem ts + 0))
      (fun parts hparts => by
        obtain ⟨h2, h3⟩ := hpc.2 parts hparts
        refine andThen_le ?_ fun p _ => andThen_le (strippedLoopC_steps hp hp0 ht env mem ts _ (by omega)) (fun _ _ => Nat.le_refl _)
        have := partsLoopC_steps (l := l) ht env parts ⟨false, none, fieldRunes mem t.start, fieldRunes mem t.stop, a⟩ h3
          (by rw [h2]; omega)
        rw [h2] at this
        exact this)
    rw [Nat.mul_add, Nat.add_mul G 5 (textRunes mem t.text).length]
    rw [Nat.add_mul G 4 (textRunes mem t.text).length] at h1
    omega

theorem textRunes_le (mem : List Rune) (ts : List Ansi.StrippedToken) :
    textSize mem ts ≤ (ts.flatMap (Ansi.tokRunes mem)).length := by
  induction ts with
  | nil => exact Nat.le_refl _
  | cons t ts ih =>
    unfold textSize at ih ⊢
    simp only [List.flatMap_cons, List.length_append]
    have : (textRunes mem t.text).length ≤ (Ansi.tokRunes mem t).length := by
      rw [← span_tok]
      simp only [Span.runes, List.length_append]
      omega
    omega

theorem strip_results {rt : Runtime} {env : Env} (hd : AsciiDigits env) {t : List Rune} (hl : (t.length : Int) < 2 ^ 63)
    {ts : List Ansi.StrippedToken} {mem : List Rune}
    (h : Ansi.stripToken env (t ++ rt.spare t) ⟨0, t.length⟩ = .ok (ts, mem)) :
    ts.length ≤ t.length + 1 ∧ textSize mem ts ≤ t.length + 2 := by
  have hv : (⟨0, t.length⟩ : View).Valid (t ++ rt.spare t) := by simp [View.Valid]
  rcases Ansi.stripToken_spec env hd (t ++ rt.spare t) ⟨0, t.length⟩ hv hl with ⟨g1, _⟩ | ⟨toks', g1, g2⟩
  · rw [g1] at h; cases h
  · rw [g2] at h; cases h
    have h1 := (Ansi.run_length g1).2
    have h2 := (Ansi.run_size hd g1 hv).1
    have h3 := textRunes_le (t ++ rt.spare t) ts
    simp only at h1 h2
    omega

theorem boxNodesC_steps {N G : Nat} (hp : Tame N 1 pc) (hp0 : (pc []).steps = 0 ∧ ∀ parts, (pc []).res = .ok parts → parts = [])
    (ht : Tame N G hc) (rt : Runtime) {env : Env} (hd : AsciiDigits env) (t : List Rune) (hl : (t.length : Int) < 2 ^ 63)
    (hN : t.length + 2 ≤ N) (a : AState) : (boxNodesC pc hc rt env l t a).steps + 1 ≤ (G + 9) * (t.length + 2) := by
  have hv : (⟨0, t.length⟩ : View).Valid (t ++ rt.spare t) := by simp [View.Valid]
  unfold boxNodesC
  have h1 := andThen_le (Ansi.stripTokenC_steps env hd (t ++ rt.spare t) ⟨0, t.length⟩ hv hl)
    (f := fun r => strippedLoopC pc hc env l r.2 r.1 a) (b := (t.length + 1) + (G + 5) * (t.length + 2)) (fun r hr => by
      rw [Ansi.stripTokenC_res] at hr
      obtain ⟨i1, i2⟩ := strip_results hd hl hr
      have := strippedLoopC_steps (l := l) hp hp0 ht env r.2 r.1 a (by omega)
      have h2 : (G + 5) * textSize r.2 r.1 ≤ (G + 5) * (t.length + 2) := Nat.mul_le_mul_left _ i2
      omega)
  rw [Nat.add_mul G 9]
  rw [Nat.add_mul G 5] at h1
  simp only at h1
  omega

theorem tokensLoopC_steps {N G : Nat} (hp : Tame N 1 pc) (hp0 : (pc []).steps = 0 ∧ ∀ parts, (pc []).res = .ok parts → parts = [])
    (ht : Tame N G hc) (rt : Runtime) {env : Env} (hd : AsciiDigits env) : ∀ (ts : List (List Rune)) (a : AState),
    (∀ t ∈ ts, (t.length : Int) < 2 ^ 63) → (∀ t ∈ ts, t.length + 2 ≤ N) →
    (tokensLoopC pc hc rt env l ts a).steps ≤ (G + 9) * (ts.flatten.length + 2 * ts.length)
  | [], _, _, _ => Nat.zero_le _
  | [t], a, hl, hN => by
    unfold tokensLoopC
    simp only [Counted.round]
    have h0 := boxNodesC_steps (l := l) hp hp0 ht rt hd t (hl t (by simp)) (hN t (by simp)) a
    have h1 := andThen_le (Nat.le_refl (boxNodesC pc hc rt env l t a).steps)
      (f := fun p => Counted.of (.ok (p.1 ++ endNodes, p.2))) (b := 0) (fun _ _ => Nat.le_refl _)
    simp only [List.flatten_cons, List.flatten_nil, List.append_nil, List.length_singleton, Nat.mul_one]
    omega
  | t :: u :: ts, a, hl, hN => by
    unfold tokensLoopC
    simp only [Counted.round]
    have h0 := boxNodesC_steps (l := l) hp hp0 ht rt hd t (hl t (by simp)) (hN t (by simp)) a
    have h1 := andThen_le (Nat.le_refl (boxNodesC pc hc rt env l t a).steps)
      (f := fun p => (tokensLoopC pc hc rt env l (u :: ts) p.2).andThen fun q =>
        Counted.of (.ok (p.1 ++ gapNodes l ++ q.1, q.2)))
      (b := (G + 9) * ((u :: ts).flatten.length + 2 * (u :: ts).length) + 0)
      (fun p _ => andThen_le (tokensLoopC_steps hp hp0 ht rt hd (u :: ts) p.2
        (fun x hx => hl x (by simp [hx])) (fun x hx => hN x (by simp [hx]))) (fun _ _ => Nat.le_refl _))
    have e : (t :: u :: ts).flatten.length + 2 * (t :: u :: ts).length =
        (t.length + 2) + ((u :: ts).flatten.length + 2 * (u :: ts).length) := by
      simp only [List.flatten_cons, List.length_append, List.length_cons]; omega
    rw [e, Nat.mul_add (G + 9) (t.length + 2)]
    omega

/-! ## The number of boxes -/

/-- Words are divided without losses and empty parts. -/
def Divides (f : Option SplitFunc) : Prop :=
  ∀ w, w ≠ [] → ∀ parts, callSplit f w = .ok parts → parts.flatten = w ∧ [] ∉ parts

theorem softLoop_boxes (l : LineBreaker F) : ∀ (ps : List (List Rune)) (s : TokState), boxCount (softLoop l ps s).1 = ps.length
  | [], s => rfl
  | p :: ps, s => by
    unfold softLoop
    simp only [box_count, boxCount_append, pushHyphen_count, List.length_cons, softLoop_boxes l ps]
    omega

theorem slice_but_last {α : Type} {s p : List α} (h : slice s 0 ((s.length : Int) - 1) = .ok p) : p.length + 1 = s.length := by
  unfold slice at h
  split at h
  · cases h; simp only [List.length_take, List.length_drop]; omega
  · cases h

theorem wordNodes_boxes (hh : l.wordBreak = true → Divides l.hyphenator) (hb : l.wordBreak = true) (w : List Rune) (hw : w ≠ [])
    (s : TokState) (r : List (Node F) × TokState) (h : wordNodes l w s = .ok r) : boxCount r.1 ≤ w.length := by
  have hpos := List.length_pos_iff.mpr hw
  unfold wordNodes at h
  split at h
  · cases h; exact hpos
  · cases h1 : callSplit l.hyphenator w with
    | error e => rw [h1] at h; cases h
    | ok hy =>
      simp only [h1, ok_bind] at h
      obtain ⟨i1, i2⟩ := hh hb w hw hy h1
      have i3 := length_le_flatten hy i2
      rw [i1] at i3
      cases h2 : slice hy 0 ((hy.length : Int) - 1) with
      | error e => rw [h2] at h; cases h
      | ok ps =>
        simp only [h2, ok_bind] at h
        cases h3 : index hy ((hy.length : Int) - 1) with
        | error e => rw [h3] at h; cases h
        | ok last =>
          simp only [h3, ok_bind] at h
          cases h
          have := slice_but_last h2
          simp only [boxCount_append, softLoop_boxes]
          rw [box_count]
          have e : boxCount ([] : List (Node F)) = 0 := rfl
          omega

theorem wordsLoop_boxes (hh : l.wordBreak = true → Divides l.hyphenator) (hb : l.wordBreak = true) :
    ∀ (ws : List (List Rune)) (s : TokState) (r : List (Node F) × TokState), [] ∉ ws →
    wordsLoop l ws s = .ok r → boxCount r.1 ≤ ws.flatten.length
  | [], s, r, _, h => by cases h; exact Nat.le_refl _
  | w :: ws, s, r, hne, h => by
    rw [List.mem_cons, not_or] at hne
    unfold wordsLoop at h
    cases h1 : wordNodes l w s with
    | error e => rw [h1] at h; cases h
    | ok p =>
      simp only [h1, ok_bind] at h
      cases h2 : wordsLoop l ws p.2 with
      | error e => rw [h2] at h; cases h
      | ok q =>
        simp only [h2, ok_bind] at h
        cases h
        have e1 := wordNodes_boxes hh hb w (fun e => hne.1 e.symm) s p h1
        have e2 := wordsLoop_boxes hh hb ws p.2 q hne.2 h2
        simp only [boxCount_append, List.flatten_cons, List.length_append]
        omega

theorem partNodes_boxes (hh : l.wordBreak = true → Divides l.hyphenator) (env : Env) (t : List Rune) (ht : t ≠ [])
    (s : TokState) (r : List (Node F) × TokState) (h : partNodes env l t s = .ok r) : boxCount r.1 ≤ t.length := by
  have hpos := List.length_pos_iff.mpr ht
  unfold partNodes at h
  split at h
  · cases h; exact hpos
  · split at h
    · cases h; rw [box_count]; exact hpos
    · rename_i hb
      have hb : l.wordBreak = true := by
        cases h : l.wordBreak with
        | true => rfl
        | false => rw [h] at hb; simp at hb
      obtain ⟨parts, h1, h2, h3, _⟩ := C07_splitWord t
      simp only [h1, ok_bind] at h
      have hm : [] ∉ parts := by
        intro hm
        rcases h3.kind _ hm with ⟨r, e, _⟩ | ⟨e, _⟩
        · cases e
        · exact e rfl
      have := wordsLoop_boxes hh hb parts s r hm h
      rw [h2] at this
      exact this

theorem partsLoop_boxes (hh : l.wordBreak = true → Divides l.hyphenator) (env : Env) :
    ∀ (ts : List (List Rune)) (s : TokState) (r : List (Node F) × TokState), [] ∉ ts →
    partsLoop env l ts s = .ok r → boxCount r.1 ≤ ts.flatten.length
  | [], s, r, _, h => by cases h; exact Nat.le_refl _
  | t :: ts, s, r, hne, h => by
    rw [List.mem_cons, not_or] at hne
    unfold partsLoop at h
    cases h1 : partNodes env l t s with
    | error e => rw [h1] at h; cases h
    | ok p =>
      simp only [h1, ok_bind] at h
      cases h2 : partsLoop env l ts p.2 with
      | error e => rw [h2] at h; cases h
      | ok q =>
        simp only [h2, ok_bind] at h
        cases h
        have e1 := partNodes_boxes hh env t (fun e => hne.1 e.symm) s p h1
        have e2 := partsLoop_boxes hh env ts p.2 q hne.2 h2
        simp only [boxCount_append, List.flatten_cons, List.length_append]
        omega

theorem strippedLoop_boxes (hp : Divides l.punctuator) (hp0 : ∀ parts, callSplit l.punctuator [] = .ok parts → parts = [])
    (hh : l.wordBreak = true → Divides l.hyphenator) (env : Env) (mem : List Rune) :
    ∀ (ts : List Ansi.StrippedToken) (a : AState) (r : List (Node F) × AState),
    strippedLoop env l mem ts a = .ok r → boxCount r.1 ≤ textSize mem ts
  | [], a, r, h => by cases h; exact Nat.le_refl _
  | t :: ts, a, r, h => by
    have e : textSize mem (t :: ts) = (textRunes mem t.text).length + textSize mem ts := by
      simp [textSize]
    unfold strippedLoop at h
    cases h1 : callSplit l.punctuator (textRunes mem t.text) with
    | error e => rw [h1] at h; cases h
    | ok ps =>
      simp only [h1, ok_bind] at h
      have hps : ps.flatten = textRunes mem t.text ∧ [] ∉ ps := by
        by_cases h0 : textRunes mem t.text = []
        · rw [h0] at h1 ⊢
          rw [hp0 ps h1]
          exact ⟨rfl, by simp⟩
        · exact hp _ h0 ps h1
      cases h2 : partsLoop env l ps ⟨false, none, fieldRunes mem t.start, fieldRunes mem t.stop, a⟩ with
      | error e => rw [h2] at h; cases h
      | ok p =>
        simp only [h2, ok_bind] at h
        cases h3 : strippedLoop env l mem ts p.2.close with
        | error e => rw [h3] at h; cases h
        | ok q =>
          simp only [h3, ok_bind] at h
          cases h
          have e1 := partsLoop_boxes hh env ps _ p hps.2 h2
          rw [hps.1] at e1
          have e2 := strippedLoop_boxes hp hp0 hh env mem ts _ q h3
          simp only [boxCount_append]
          omega

theorem tokensLoop_boxes (hp : Divides l.punctuator) (hp0 : ∀ parts, callSplit l.punctuator [] = .ok parts → parts = [])
    (hh : l.wordBreak = true → Divides l.hyphenator) (rt : Runtime) {env : Env} (hd : AsciiDigits env) :
    ∀ (ts : List (List Rune)) (a : AState) (r : List (Node F) × AState), (∀ t ∈ ts, (t.length : Int) < 2 ^ 63) →
    tokensLoop rt env l ts a = .ok r → boxCount r.1 ≤ ts.flatten.length + 2 * ts.length := by
  have hbox : ∀ (t : List Rune) (a : AState) (r : List (Node F) × AState), (t.length : Int) < 2 ^ 63 →
      boxNodes rt env l t a = .ok r → boxCount r.1 ≤ t.length + 2 := by
    intro t a r hl h
    unfold boxNodes at h
    cases h1 : Ansi.stripToken env (t ++ rt.spare t) ⟨0, t.length⟩ with
    | error e => rw [h1] at h; cases h
    | ok p =>
      simp only [h1, ok_bind] at h
      exact (strippedLoop_boxes hp hp0 hh env _ _ a r h).trans (strip_results hd hl h1).2
  intro ts
  induction ts with
  | nil => intro a r _ h; cases h; exact Nat.le_refl _
  | cons t ts ih =>
    intro a r hl h
    have ht := hl t List.mem_cons_self
    have hts := fun x hx => hl x (List.mem_cons_of_mem _ hx)
    cases ts with
    | nil =>
      unfold tokensLoop at h
      cases h1 : boxNodes rt env l t a with
      | error e => rw [h1] at h; cases h
      | ok p =>
        simp only [h1, ok_bind] at h
        cases h
        have := hbox t a p ht h1
        have e3 : boxCount (endNodes (F := F)) = 0 := rfl
        simp only [boxCount_append, List.flatten_cons, List.flatten_nil, List.append_nil, List.length_singleton]
        omega
    | cons u ts =>
      unfold tokensLoop at h
      cases h1 : boxNodes rt env l t a with
      | error e => rw [h1] at h; cases h
      | ok p =>
        simp only [h1, ok_bind] at h
        cases h2 : tokensLoop rt env l (u :: ts) p.2 with
        | error e => rw [h2] at h; cases h
        | ok q =>
          simp only [h2, ok_bind] at h
          cases h
          have e1 := hbox t a p ht h1
          have e2 := ih p.2 q hts h2
          have e3 : boxCount (gapNodes l) = 0 := rfl
          rw [List.flatten_cons, List.length_append, List.length_cons]
          simp only [boxCount_append]
          omega

/-! ## The whole call -/

/-- All rounds of a call that returns. -/
theorem alignC_steps {N G : Nat} (hp : Tame N 1 pc) (hp0 : (pc []).steps = 0 ∧ ∀ parts, (pc []).res = .ok parts → parts = [])
    (ht : Tame N G hc) (hpr : ∀ w, (pc w).res = callSplit l.punctuator w)
    (hhr : l.wordBreak = true → ∀ w, (hc w).res = callSplit l.hyphenator w) {rt : Runtime} (ho : OneWalk rt) {env : Env}
    (hd : AsciiDigits env) (tokens : List (List Rune)) (hl : ∀ t ∈ tokens, (t.length : Int) < 2 ^ 63)
    (hN : tokens.flatten.length + 3 * tokens.length = N) (hbig : ∀ w ps, w ≠ [] → callSplit l.punctuator w = .ok ps → ps.flatten = w ∧ [] ∉ ps)
    (hbigh : l.wordBreak = true → Divides l.hyphenator)
    (maxWidth : F) (r : Option (List (List Rune))) (l' : LineBreaker F)
    (h : leftAlignUniform rt env l tokens maxWidth = .ok (r, l')) :
    (alignC pc hc rt env l tokens maxWidth).steps ≤ (G + 69) * N + 75 * (N * N) + 2 +
      ((r.getD []).length * (14 * N + 4 * l.attrList.length + 2) + (r.getD []).flatten.length) := by
  have hlen : ∀ t ∈ tokens, t.length + 2 ≤ N := by
    intro t htm
    have h1 := List.length_pos_of_mem htm
    have h2 : t.length ≤ tokens.flatten.length := (List.sublist_flatten_of_mem htm).length_le
    omega
  have h1 := tokensLoopC_steps (l := l) hp hp0 ht rt hd tokens l.attrList hl hlen
  have h1' : (G + 9) * (tokens.flatten.length + 2 * tokens.length) ≤ (G + 9) * N := Nat.mul_le_mul_left _ (by omega)
  have key := alignC_res hpr hhr rt env tokens maxWidth
  rw [h] at key
  have e69 : (G + 69) * N = (G + 9) * N + 60 * N := by rw [← Nat.add_mul]
  rw [e69]
  unfold alignC at key ⊢
  rw [andThen_res] at key
  cases hn : (tokensLoopC pc hc rt env l tokens l.attrList).res with
  | error e => rw [hn] at key; cases key
  | ok p =>
    rw [hn, ok_bind, andThen_res] at key
    have hnodes : tokensLoop rt env l tokens l.attrList = .ok p := by rw [← tokensLoopC_res hpr hhr]; exact hn
    have k1 := tokensLoop_count rt env l tokens _ _ hnodes
    have k2 := tokensLoop_size rt env l tokens _ _ hnodes
    have k3 := tokensLoop_boxes (l := l) (fun w hw ps => hbig w ps hw)
      (fun parts hq => hp0.2 parts (by rw [hpr]; exact hq)) hbigh rt hd tokens _ _ hl hnodes
    have hP : 5 * boxCount p.1 + 3 * tokens.length ≤ 5 * N := by omega
    have hns : p.1.length ≤ 5 * N := by omega
    have hsearch := breakPointsC_steps ho l.toOptions p.1 (l.scale maxWidth)
    have hsq := Nat.mul_le_mul hns hns
    have e25 : 5 * N * (5 * N) = 25 * (N * N) := by rw [Nat.mul_mul_mul_comm]
    have hsearch' : (breakPointsC rt l.toOptions p.1 (l.scale maxWidth)).steps ≤ 75 * (N * N) + 60 * N + 2 := by omega
    rw [Ansi.andThen_ok hn]
    cases hb : (breakPointsC rt l.toOptions p.1 (l.scale maxWidth)).res with
    | error e => rw [hb] at key; cases key
    | ok b =>
      rw [hb, ok_bind] at key
      rw [Ansi.andThen_ok hb]
      cases b with
      | none =>
        simp only [Counted.of]
        omega
      | some chain =>
        simp only at key ⊢
        rw [andThen_res] at key
        cases hr : (renderC l.toOptions p.2 p.1 chain).res with
        | error e => rw [hr] at key; cases key
        | ok lines =>
          rw [hr, ok_bind] at key
          rw [Ansi.andThen_ok hr]
          simp only [Counted.of] at key ⊢
          cases key
          have := (renderC_steps _ _ _ _ _ hr).2
          have hm : lines.length * (2 * p.1.length + 4 * p.2.length + 2) ≤
              lines.length * (14 * N + 4 * l.attrList.length + 2) := Nat.mul_le_mul_left _ (by omega)
          simp only [Option.getD_some]
          omega

end
end LB
end Verif.Proofs
