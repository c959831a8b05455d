import Verif.Model.Attributes
import Verif.Spec.Attributes

/-! # Proofs about nesting levels and line starts and ends -/

namespace Verif.Model
open Verif.Go Verif.Spec

theorem writeStart_eq (a : Attribute) (out : List Rune) : a.writeStart out = out ++ a.start := by
  unfold Attribute.writeStart Attribute.hasStart emit
  cases h : a.start <;> simp

theorem writeStop_eq (a : Attribute) (out : List Rune) : a.writeStop out = out ++ a.stop := by
  unfold Attribute.writeStop Attribute.hasStop emit
  cases h : a.stop <;> simp

theorem render_eq (a : Attribute) (out : List Rune) :
    a.render out = out ++ (a.start ++ a.text ++ a.stop) := by
  unfold Attribute.render
  rw [writeStop_eq, writeStart_eq]
  cases h : a.text <;> simp [emit]

/-- The attributes of a text, with their levels, when `d` styles are open before it. -/
def lv (d : Int) : List Piece → List Attribute
  | [] => []
  | p :: rest =>
    let d' := if p.start = [] then d else d + 1
    ⟨p.text, p.start, p.stop, d'⟩ :: lv (if p.stop = [] then d' else d' - 1) rest

/-- Number of styles open after a text, when `d` are open before it. -/
def dep (d : Int) : List Piece → Int
  | [] => d
  | p :: rest =>
    let d' := if p.start = [] then d else d + 1
    dep (if p.stop = [] then d' else d' - 1) rest

@[simp] theorem lv_length (d : Int) (l : List Piece) : (lv d l).length = l.length := by
  induction l generalizing d with
  | nil => rfl
  | cons p r ih => simp [lv, ih]

theorem dep_append (d : Int) (a b : List Piece) : dep d (a ++ b) = dep (dep d a) b := by
  induction a generalizing d with
  | nil => rfl
  | cons p r ih => simp [dep, ih]

theorem lv_append (d : Int) (a b : List Piece) : lv d (a ++ b) = lv d a ++ lv (dep d a) b := by
  induction a generalizing d with
  | nil => rfl
  | cons p r ih => simp [lv, dep, ih]

theorem dep_count (d : Int) (l : List Piece) : dep d l = d + starts l - stops l := by
  induction l generalizing d with
  | nil => simp [dep, starts, stops]
  | cons p r ih =>
    simp only [dep, ih]
    have e1 : starts (p :: r) = (if p.start = [] then 0 else 1) + starts r := by
      unfold starts
      by_cases h : p.start = [] <;> simp [h]; omega
    have e2 : stops (p :: r) = (if p.stop = [] then 0 else 1) + stops r := by
      unfold stops
      by_cases h : p.stop = [] <;> simp [h]; omega
    rw [e1, e2]
    split <;> split <;> simp <;> omega

/-- The level of each attribute. -/
theorem lv_getElem? (d : Int) (l : List Piece) (k : Nat) :
    (lv d l)[k]? = l[k]?.map (fun p =>
      ⟨p.text, p.start, p.stop, dep d (l.take k) + (if p.start = [] then 0 else 1)⟩) := by
  induction l generalizing d k with
  | nil => simp [lv]
  | cons p r ih =>
    cases k with
    | zero =>
      simp only [lv, List.getElem?_cons_zero, List.take_zero, dep, Option.map_some]
      split <;> simp
    | succ k =>
      simp only [lv, List.getElem?_cons_succ, ih, List.take_succ_cons, dep]

theorem dep_take_succ (d : Int) (l : List Piece) (k : Nat) (p : Piece) (h : l[k]? = some p) :
    dep d (l.take (k + 1)) =
      dep d (l.take k) + (if p.start = [] then 0 else 1) - (if p.stop = [] then 0 else 1) := by
  rw [List.take_add_one, h, dep_append]
  simp only [Option.toList, dep]
  split <;> split <;> simp

/-- Pushing a piece on the attributes of a text. -/
theorem push_lv (l : List Piece) (a : Attribute) :
    AState.push (lv 0 l) (some a) = lv 0 (l ++ [⟨a.text, a.start, a.stop⟩]) := by
  rw [lv_append]
  unfold AState.push
  simp only
  congr 1
  simp only [lv, Attribute.setLevel]
  have hl : AState.backLevel (lv 0 l) = dep 0 l := by
    unfold AState.backLevel
    rcases List.eq_nil_or_concat l with rfl | ⟨q, p, rfl⟩
    · simp [lv, dep]
    · rw [List.concat_eq_append, lv_append, dep_append]
      simp only [lv, dep, List.getLast?_append, List.getLast?_singleton, Option.some_or]
      unfold Attribute.hasStop
      cases h : p.stop <;> simp
  rw [hl]
  unfold Attribute.hasStart
  cases h : a.start <;> simp

/-- Setting the stop sequence of the last piece. -/
theorem setLastStop_lv (l : List Piece) (p : Piece) (stop : List Rune) :
    AState.setLastStop (lv 0 (l ++ [p])) stop = lv 0 (l ++ [{ p with stop := stop }]) := by
  rw [lv_append, lv_append]
  unfold AState.setLastStop
  simp [lv, Attribute.setStop]

/-! ## Loops -/

theorem startLoop_eq (s : AState) (n k : Nat) (out : List Rune) :
    startLoop s n k out = out ++ (((s.drop k).take (n + 1)).map Attribute.start).flatten := by
  induction n generalizing k out with
  | zero =>
    unfold startLoop
    cases h : s[k]? with
    | none =>
      rw [List.drop_eq_nil_of_le (List.getElem?_eq_none_iff.mp h)]
      simp
    | some a =>
      obtain ⟨hk, rfl⟩ := List.getElem?_eq_some_iff.mp h
      rw [List.drop_eq_getElem_cons hk]
      simp only [writeStart_eq, List.take_succ_cons, List.take_zero, List.map_cons, List.map_nil,
        List.flatten_cons, List.flatten_nil, List.append_nil]
  | succ n ih =>
    unfold startLoop
    cases h : s[k]? with
    | none =>
      rw [List.drop_eq_nil_of_le (List.getElem?_eq_none_iff.mp h)]
      simp
    | some a =>
      obtain ⟨hk, rfl⟩ := List.getElem?_eq_some_iff.mp h
      rw [List.drop_eq_getElem_cons hk]
      simp only [writeStart_eq, ih, List.take_succ_cons, List.map_cons, List.flatten_cons,
        List.append_assoc]

theorem stopLoop_append (L : Int) (a b : List Attribute) (out : List Rune)
    (h : ∀ x ∈ a, L ≤ x.level) :
    stopLoop L (a ++ b) out = stopLoop L b (out ++ (a.map Attribute.stop).flatten) := by
  induction a generalizing out with
  | nil => simp
  | cons x r ih =>
    have hx := h x (by simp)
    rw [List.cons_append, stopLoop, if_neg (by omega), ih _ (fun y hy => h y (by simp [hy])),
      writeStop_eq]
    simp

theorem backtrackLoop_back (s : AState) (level : Int) (b j : Nat)
    (hin : ∀ k, b ≤ k → k < b + j → ∃ a, s[k]? = some a ∧ level ≤ a.level)
    (hb : b = 0 ∨ ∃ a, s[b - 1]? = some a ∧ a.level < level) :
    backtrackLoop s level (b + j) = b := by
  induction j with
  | zero =>
    rcases hb with rfl | ⟨a, h1, h2⟩
    · rfl
    · cases b with
      | zero => rfl
      | succ b =>
        simp only [backtrackLoop]
        simp only [Nat.add_sub_cancel] at h1
        rw [h1]
        simp [h2]
  | succ j ih =>
    obtain ⟨a, h1, h2⟩ := hin (b + j) (by omega) (by omega)
    rw [show b + (j + 1) = (b + j) + 1 by omega, backtrackLoop, h1]
    simp only
    rw [if_neg (by omega)]
    exact ih (fun k hk hk' => hin k hk (by omega))

/-! ## Plain texts -/

theorem _root_.Verif.Spec.Plain.append {a b : List Piece} (ha : Plain a) (hb : Plain b) : Plain (a ++ b) := by
  induction ha with
  | nil => exact hb
  | cons t _ ih => exact .cons t ih

theorem _root_.Verif.Spec.Plain.take {a : List Piece} (ha : Plain a) (n : Nat) : Plain (a.take n) := by
  induction ha generalizing n with
  | nil => simpa using Plain.nil
  | cons t _ ih =>
    cases n with
    | zero => exact .nil
    | succ n => exact .cons t (ih n)

theorem _root_.Verif.Spec.Plain.drop {a : List Piece} (ha : Plain a) (n : Nat) : Plain (a.drop n) := by
  induction ha generalizing n with
  | nil => simpa using Plain.nil
  | cons t h ih =>
    cases n with
    | zero => exact .cons t h
    | succ n => exact ih n

theorem _root_.Verif.Spec.Plain.mem {a : List Piece} (ha : Plain a) {p : Piece} (h : p ∈ a) :
    p.start = [] ∧ p.stop = [] := by
  induction ha with
  | nil => simp at h
  | cons t _ ih =>
    rcases List.mem_cons.mp h with rfl | h
    · simp
    · exact ih h

theorem _root_.Verif.Spec.Plain.dep {a : List Piece} (ha : Plain a) (d : Int) : dep d a = d := by
  induction ha generalizing d with
  | nil => rfl
  | cons t _ ih => simpa [Model.dep] using ih d

theorem _root_.Verif.Spec.Plain.openAfter {a : List Piece} (ha : Plain a) (o : List (List Rune)) :
    openAfter o a = o := by
  induction ha generalizing o with
  | nil => rfl
  | cons t _ ih => simpa [Spec.openAfter] using ih o

theorem openAfter_append (o : List (List Rune)) (a b : List Piece) :
    openAfter o (a ++ b) = openAfter (openAfter o a) b := by
  induction a generalizing o with
  | nil => rfl
  | cons p r ih => simp [openAfter, ih]

theorem _root_.Verif.Spec.Plain.lv {a : List Piece} (ha : Plain a) (d : Int) :
    lv d a = a.map (fun p => ⟨p.text, [], [], d⟩) := by
  induction ha generalizing d with
  | nil => rfl
  | cons t _ ih => simp [Model.lv, ih]

theorem _root_.Verif.Spec.Plain.closing_append {a : List Piece} (ha : Plain a) (m : List Bool) (b : List Piece) :
    closing m (a ++ b) = closing m b := by
  induction ha with
  | nil => rfl
  | cons t _ ih => simpa [closing] using ih

theorem closing_false (m : List Bool) (l : List Piece) (h : ∀ b ∈ m, b = false) :
    closing m l = [] := by
  induction l generalizing m with
  | nil => rfl
  | cons p r ih =>
    simp only [closing]
    have h' : ∀ b ∈ (if p.start = [] then m else false :: m), b = false := by
      split
      · exact h
      · intro b hb
        rcases List.mem_cons.mp hb with rfl | hb
        · rfl
        · exact h b hb
    generalize (if p.start = [] then m else false :: m) = m' at h'
    split
    · exact ih _ h'
    · cases m' with
      | nil => exact ih _ (by simp)
      | cons b m' =>
        have hb : b = false := h' b (by simp)
        subst hb
        exact ih _ (fun x hx => h' x (by simp [hx]))

/-! ## Positions in a separated text -/

/-- A text after which no style is open. -/
def Closed (a : List Piece) : Prop := dep 0 a = 0 ∧ openAfter [] a = []

theorem Closed.append {a b : List Piece} (ha : Closed a) (hb : Closed b) : Closed (a ++ b) :=
  ⟨by rw [dep_append, ha.1, hb.1], by rw [openAfter_append, ha.2, hb.2]⟩

theorem _root_.Verif.Spec.Plain.closed {a : List Piece} (ha : Plain a) : Closed a := ⟨ha.dep 0, ha.openAfter []⟩

theorem _root_.Verif.Spec.Run.closed {b : List Piece} {start stop : List Rune} (h : Run b start stop) : Closed b := by
  cases h with
  | single t h1 h2 => simp [Closed, dep, openAfter, h1, h2]
  | many t t' h1 h2 hp =>
    constructor
    · simp [dep, h1, dep_append, hp.dep, h2]
    · simp [openAfter, h1, openAfter_append, hp.openAfter, h2]

/-- Where the piece at position `i` of a text stands: after it no style is open, or it is in a run that
has piece(s) without style on both sides. -/
inductive At (l : List Piece) (i : Nat) : Prop where
  | out : Closed (l.take (i + 1)) → At l i
  | inRun (pre mid tail : List Piece) (t start : List Rune) (j : Nat) :
      l = pre ++ ⟨t, start, []⟩ :: (mid ++ tail) → i = pre.length + j → j ≤ mid.length →
      start ≠ [] → Closed pre → (pre = [] ∨ ∃ q t', pre = q ++ [⟨t', [], []⟩] ∧ Closed q) →
      Plain mid →
      (tail = [] ∨ ∃ t' stop rest, tail = ⟨t', [], stop⟩ :: rest ∧ stop ≠ [] ∧
        (rest = [] ∨ ∃ t'' rest', rest = ⟨t'', [], []⟩ :: rest')) → At l i

theorem plain_last {a : List Piece} (ha : Plain a) :
    a = [] ∨ ∃ q t', a = q ++ [(⟨t', [], []⟩ : Piece)] ∧ Closed q := by
  rcases List.eq_nil_or_concat a with rfl | ⟨q, p, rfl⟩
  · exact .inl rfl
  · right
    rw [List.concat_eq_append] at ha ⊢
    have h := ha.mem (p := p) (by simp)
    refine ⟨q, p.text, ?_, ?_⟩
    · cases p; simp_all
    · have := (ha.take q.length).closed
      simpa using this

/-- Position in plain text followed by anything. -/
theorem at_plain {a rest : List Piece} (ha : Plain a) {i : Nat} (hi : i < a.length) :
    At (a ++ rest) i := by
  refine .out ?_
  rw [List.take_append_of_le_length (by omega)]
  exact (ha.take _).closed

theorem at_run {a b rest : List Piece} {start stop : List Rune} (ha : Plain a) (hb : Run b start stop)
    (hr : rest = [] ∨ ∃ t'' rest', rest = (⟨t'', [], []⟩ : Piece) :: rest') {i : Nat}
    (h1 : a.length ≤ i) (h2 : i < a.length + b.length) : At (a ++ b ++ rest) i := by
  have hbc := hb.closed
  by_cases hlast : i + 1 = a.length + b.length
  · refine .out ?_
    rw [List.take_append_of_le_length (by simp; omega), List.take_of_length_le (by simp; omega)]
    exact ha.closed.append hbc
  · cases hb with
    | single t h3 h4 => simp at h2 hlast; omega
    | many t t' h3 h4 hp =>
      rename_i mid
      simp at h2 hlast
      refine .inRun a mid (⟨t', [], stop⟩ :: rest) t start (i - a.length) (by simp) (by omega)
        (by omega) h3 ha.closed (plain_last ha) hp (.inr ⟨t', stop, rest, rfl, h4, hr⟩)

theorem at_shift {x l : List Piece} {t : List Rune} {i : Nat} (hx : Closed x) (h : At l i) :
    At (x ++ ⟨t, [], []⟩ :: l) (x.length + 1 + i) := by
  have ht : Closed [(⟨t, [], []⟩ : Piece)] := (Plain.cons t .nil).closed
  cases h with
  | out hc =>
    refine .out ?_
    rw [show x.length + 1 + i + 1 = (x ++ [(⟨t, [], []⟩ : Piece)]).length + (i + 1) by simp; omega,
      show x ++ ⟨t, [], []⟩ :: l = (x ++ [(⟨t, [], []⟩ : Piece)]) ++ l by simp,
      List.take_length_add_append]
    exact (hx.append ht).append hc
  | inRun pre mid tail t₀ start j h1 h2 h3 h4 h5 h6 h7 h8 =>
    subst h1
    refine .inRun (x ++ ⟨t, [], []⟩ :: pre) mid tail t₀ start j (by simp) (by simp; omega) h3 h4 ?_ ?_
      h7 h8
    · have := (hx.append ht).append h5
      simpa using this
    · right
      rcases h6 with rfl | ⟨q, t', rfl, hq⟩
      · exact ⟨x, t, by simp, hx⟩
      · exact ⟨x ++ ⟨t, [], []⟩ :: q, t', by simp, by simpa using (hx.append ht).append hq⟩

theorem separated_at {l : List Piece} (h : Separated l) : ∀ i, i < l.length → At l i := by
  induction h with
  | plain hp => exact fun i hi => by simpa using at_plain (rest := []) hp hi
  | @unclosed a b start t h1 h2 h3 =>
    intro i hi
    by_cases hia : i < a.length
    · exact at_plain h2 hia
    · simp at hi
      exact .inRun a b [] t start (i - a.length) (by simp) (by omega) (by omega) h1 h2.closed
        (plain_last h2) h3 (.inl rfl)
  | @run a b start stop ha hb =>
    intro i hi
    by_cases hia : i < a.length
    · exact at_plain ha hia
    · simp at hi
      simpa using at_run (rest := []) ha hb (.inl rfl) (by omega) hi
  | @cons a b l start stop t ha hb _ ih =>
    intro i hi
    by_cases hia : i < a.length
    · rw [List.append_assoc]; exact at_plain ha hia
    · by_cases hib : i < a.length + b.length
      · exact at_run ha hb (.inr ⟨t, l, rfl⟩) (by omega) hib
      · by_cases hit : i = a.length + b.length
        · subst hit
          refine .out ?_
          rw [show a ++ b ++ ⟨t, [], []⟩ :: l = (a ++ b ++ [(⟨t, [], []⟩ : Piece)]) ++ l by simp,
            List.take_append_of_le_length (by simp; omega), List.take_of_length_le (by simp; omega)]
          exact (ha.closed.append hb.closed).append (Plain.cons t .nil).closed
        · have := at_shift (t := t) (ha.closed.append hb.closed) (ih (i - a.length - b.length - 1)
            (by simp at hi; omega))
          rw [show i = (a ++ b).length + 1 + (i - a.length - b.length - 1) by simp; omega]
          exact this

/-! ## Starts and ends of lines -/

/-- No style is open: nothing is written. -/
theorem startOfLine_zero (l : List Piece) (i : Nat) (b : Bool) (hd : dep 0 (l.take (i + 1)) = 0)
    (out : List Rune) : AIter.startOfLine (lv 0 l) ⟨b, some i⟩ out = out := by
  unfold AIter.startOfLine
  simp only [lv_getElem?]
  cases h : l[i]? with
  | none => simp
  | some p =>
    rw [dep_take_succ 0 l i p h] at hd
    simp only [Option.map_some, Attribute.hasStop]
    generalize (dep 0 (l.take i) + if p.start = [] then 0 else 1) = L at hd ⊢
    cases hs : p.stop with
    | nil => simp [hs] at hd; simp [hd]
    | cons x xs => simp [hs] at hd; simp [hd]

theorem endOfLine_zero (l : List Piece) (i : Nat) (b : Bool) (hd : dep 0 (l.take (i + 1)) = 0)
    (out : List Rune) : AIter.endOfLine (lv 0 l) ⟨b, some i⟩ out = out := by
  unfold AIter.endOfLine
  simp only [lv_getElem?]
  cases h : l[i]? with
  | none => simp
  | some p =>
    rw [dep_take_succ 0 l i p h] at hd
    simp only [Option.map_some, Attribute.hasStop]
    generalize (dep 0 (l.take i) + if p.start = [] then 0 else 1) = L at hd ⊢
    cases hs : p.stop with
    | nil => simp [hs] at hd; simp [hd]
    | cons x xs => simp [hs] at hd; simp [hd]

section inRun
variable {pre mid tail : List Piece} {t start : List Rune} {j : Nat}

theorem lv_inRun (hs : start ≠ []) (hc : Closed pre) (hm : Plain mid) :
    lv 0 (pre ++ ⟨t, start, []⟩ :: (mid ++ tail)) =
      lv 0 pre ++ ⟨t, start, [], 1⟩ :: (mid.map (fun p => ⟨p.text, [], [], 1⟩) ++ lv 1 tail) := by
  rw [lv_append, hc.1]
  simp [lv, hs, lv_append, hm.lv, hm.dep]

theorem inRun_get (hj : j ≤ mid.length) (hs : start ≠ []) (hc : Closed pre) (hm : Plain mid) :
    ∃ a, (lv 0 (pre ++ ⟨t, start, []⟩ :: (mid ++ tail)))[pre.length + j]? = some a ∧
      a.level = 1 ∧ a.stop = [] := by
  rw [lv_inRun hs hc hm, List.getElem?_append_right (by simp)]
  simp only [lv_length, Nat.add_sub_cancel_left]
  cases j with
  | zero => exact ⟨_, rfl, rfl, rfl⟩
  | succ j =>
    simp only [List.getElem?_cons_succ]
    rw [List.getElem?_append_left (by simp; omega)]
    simp only [List.getElem?_map]
    rw [List.getElem?_eq_getElem (by omega)]
    exact ⟨_, rfl, rfl, rfl⟩

theorem inRun_backtrack (hj : j ≤ mid.length) (hs : start ≠ []) (hc : Closed pre)
    (hl : pre = [] ∨ ∃ q t', pre = q ++ [⟨t', [], []⟩] ∧ Closed q) (hm : Plain mid) :
    backtrackLoop (lv 0 (pre ++ ⟨t, start, []⟩ :: (mid ++ tail))) 1 (pre.length + j) = pre.length := by
  apply backtrackLoop_back
  · intro k h1 h2
    obtain ⟨a, e1, e2, _⟩ := inRun_get (t := t) (tail := tail) (j := k - pre.length)
      (mid := mid) (by omega) hs hc hm
    rw [show pre.length + (k - pre.length) = k by omega] at e1
    exact ⟨a, e1, by omega⟩
  · rcases hl with rfl | ⟨q, t', rfl, hq⟩
    · exact .inl rfl
    · right
      refine ⟨⟨t', [], [], 0⟩, ?_, Int.zero_lt_one⟩
      rw [lv_append, List.getElem?_append_left (by simp), lv_append, hq.1,
        List.getElem?_append_right (by simp)]
      simp [lv]

theorem startOfLine_inRun (b : Bool) (hj : j ≤ mid.length) (hs : start ≠ []) (hc : Closed pre)
    (hl : pre = [] ∨ ∃ q t', pre = q ++ [⟨t', [], []⟩] ∧ Closed q) (hm : Plain mid)
    (out : List Rune) :
    AIter.startOfLine (lv 0 (pre ++ ⟨t, start, []⟩ :: (mid ++ tail))) ⟨b, some (pre.length + j)⟩ out =
      out ++ start := by
  obtain ⟨a, e1, e2, e3⟩ := inRun_get (t := t) (tail := tail) hj hs hc hm
  unfold AIter.startOfLine
  simp only [e1, Attribute.hasStop, e2, e3, List.length_nil, Nat.lt_irrefl, gt_iff_lt, decide_false,
    Bool.false_eq_true, if_false]
  rw [if_neg (by omega), inRun_backtrack hj hs hc hl hm, startLoop_eq, Nat.add_sub_cancel_left,
    lv_inRun hs hc hm, List.drop_append_of_le_length (by simp), List.drop_of_length_le (by simp)]
  simp only [List.nil_append, List.take_succ_cons, List.map_cons, List.flatten_cons]
  rw [List.take_append_of_le_length (by simp; omega), List.map_take, List.map_map]
  congr 1
  rw [List.append_right_eq_self, List.flatten_eq_nil_iff]
  intro x hx
  have hx := List.mem_of_mem_take hx
  simp only [List.mem_map, Function.comp] at hx
  obtain ⟨_, _, rfl⟩ := hx
  rfl

theorem endOfLine_inRun (b : Bool) (hj : j ≤ mid.length) (hs : start ≠ []) (hc : Closed pre)
    (hl : pre = [] ∨ ∃ q t', pre = q ++ [⟨t', [], []⟩] ∧ Closed q) (hm : Plain mid)
    (ht : tail = [] ∨ ∃ t' stop rest, tail = ⟨t', [], stop⟩ :: rest ∧ stop ≠ [] ∧
        (rest = [] ∨ ∃ t'' rest', rest = ⟨t'', [], []⟩ :: rest')) (out : List Rune) :
    AIter.endOfLine (lv 0 (pre ++ ⟨t, start, []⟩ :: (mid ++ tail))) ⟨b, some (pre.length + j)⟩ out =
      out ++ (closing [true] tail).flatten := by
  obtain ⟨a, e1, e2, e3⟩ := inRun_get (t := t) (tail := tail) hj hs hc hm
  unfold AIter.endOfLine
  simp only [e1, Attribute.hasStop, e2, e3, List.length_nil, Nat.lt_irrefl, gt_iff_lt, decide_false,
    Bool.false_eq_true, if_false]
  rw [if_neg (by omega), inRun_backtrack hj hs hc hl hm, lv_inRun hs hc hm,
    List.drop_append_of_le_length (by simp), List.drop_of_length_le (by simp)]
  rw [List.nil_append, show ∀ (x : Attribute) (y z : List Attribute), x :: (y ++ z) = (x :: y) ++ z
    from fun _ _ _ => rfl, stopLoop_append]
  · have e : ((⟨t, start, [], 1⟩ :: mid.map (fun p => (⟨p.text, [], [], 1⟩ : Attribute))).map
        Attribute.stop).flatten = [] := by
      rw [List.flatten_eq_nil_iff]
      intro x hx
      simp only [List.map_cons, List.mem_cons, List.map_map, List.mem_map, Function.comp] at hx
      rcases hx with rfl | ⟨_, _, rfl⟩ <;> rfl
    rw [e, List.append_nil]
    rcases ht with rfl | ⟨t', stop, rest, rfl, hst, hr⟩
    · simp [lv, stopLoop, closing]
    · have ec : closing [true] (⟨t', [], stop⟩ :: rest) = [stop] := by
        simp [closing, hst, closing_false]
      rw [ec]
      simp only [lv, if_true, if_neg hst, stopLoop, writeStop_eq, Int.lt_irrefl, if_false]
      rcases hr with rfl | ⟨t'', rest', rfl⟩
      · simp [lv, stopLoop]
      · simp [lv, stopLoop]
  · intro x hx
    rcases List.mem_cons.mp hx with rfl | hx
    · simp
    · simp only [List.mem_map] at hx
      obtain ⟨_, _, rfl⟩ := hx
      simp

end inRun

end Verif.Model
