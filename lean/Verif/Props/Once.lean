import Verif.Model.Once
import Verif.Props.Widths

/-! # Property C28: concurrent first use of Width -/

namespace Verif.Props.Once
open Verif.Go Verif.Model Verif.Model.Once Verif.Proofs

/-- What the goroutine will have computed at this point of its loop. -/
def ReadOk (tbl : List Nat) (req : List Rune) (rest : List Rune) (sum : Int) : Prop :=
  ∃ pre, req = pre ++ rest ∧ widthsLoop tbl pre 0 = .ok sum

structure OnceInv (tbl : List Nat) (req : Nat → List Rune) (s : State) : Prop where
  notBuilt : s.once = .fresh → s.builds = 0 ∧ ∀ t, s.pc t = .start
  running : ∀ t, s.once = .running t →
    (s.pc t = .building ∧ s.builds = 0 ∨ s.pc t = .built ∧ s.builds = 1 ∧ s.table = tbl) ∧
    ∀ u, u ≠ t → s.pc u = .start
  finished : s.once = .finished → s.builds = 1 ∧ s.table = tbl ∧
    ∀ t, s.pc t ≠ .building ∧ s.pc t ≠ .built
  reading : ∀ t rest sum, s.pc t = .reading rest sum → ReadOk tbl (req t) rest sum
  done : ∀ t sum, s.pc t = .done sum → widthsLoop tbl (req t) 0 = .ok sum
  panicked : ∀ t, s.pc t = .panicked → widthsLoop tbl (req t) 0 = .error .index

theorem widthsLoop_append (t : List Nat) (a b : List Rune) (w : Int) :
    widthsLoop t (a ++ b) w = (widthsLoop t a w >>= fun v => widthsLoop t b v) := by
  induction a generalizing w with
  | nil => rfl
  | cons r a ih =>
    simp only [List.cons_append, widthsLoop]
    cases lookupRune t r with
    | error e => rfl
    | ok x => simp only [ok_bind]; exact ih _

theorem onceInv_init (tbl : List Nat) (req : Nat → List Rune) : OnceInv tbl req init := by
  constructor <;> simp [init]

theorem buildDefault : initTable = .ok theTable := build_eq _ rfl

theorem lookup_error_index (t : List Nat) (r : Rune) (e : Panic) (h : lookupRune t r = .error e) :
    e = .index := by
  unfold lookupRune at h
  cases hi : index t (r >>> 2) with
  | ok b => rw [hi] at h; cases h
  | error e' =>
    rw [hi] at h
    have : e' = e := by simpa using h
    subst this
    unfold index at hi
    split at hi
    · exact (Except.error.inj hi).symm
    · split at hi
      · cases hi
      · exact (Except.error.inj hi).symm

theorem setPc_same (pc : Nat → Pc) (t : Nat) (p : Pc) : setPc pc t p t = p := by simp [setPc]
theorem setPc_ne (pc : Nat → Pc) {t u : Nat} (p : Pc) (h : u ≠ t) : setPc pc t p u = pc u := by
  simp [setPc, h]

/-- A step which does not touch the shared variables, from and to positions outside of `Do`. -/
theorem onceInv_local {tbl : List Nat} (req : Nat → List Rune) (s : State) (t : Nat) (p : Pc)
    (h : OnceInv tbl req s) (hfin : s.once = .finished) (hb : p ≠ .building) (hb' : p ≠ .built)
    (h1 : ∀ rest sum, p = .reading rest sum → ReadOk tbl (req t) rest sum)
    (h2 : ∀ sum, p = .done sum → widthsLoop tbl (req t) 0 = .ok sum)
    (h3 : p = .panicked → widthsLoop tbl (req t) 0 = .error .index) :
    OnceInv tbl req { s with pc := setPc s.pc t p } := by
  constructor
  · intro hf; exact absurd (hfin.symm.trans hf) (by simp)
  · intro u hf; exact absurd (hfin.symm.trans hf) (by simp)
  · intro _
    refine ⟨(h.finished hfin).1, (h.finished hfin).2.1, fun u => ?_⟩
    by_cases e : u = t
    · subst e; simp only [setPc_same]; exact ⟨hb, hb'⟩
    · simp only [setPc_ne _ _ e]; exact (h.finished hfin).2.2 u
  · intro u rest sum hu
    by_cases e : u = t
    · subst e; simp only [setPc_same] at hu; exact h1 _ _ hu
    · simp only [setPc_ne _ _ e] at hu; exact h.reading u _ _ hu
  · intro u sum hu
    by_cases e : u = t
    · subst e; simp only [setPc_same] at hu; exact h2 _ hu
    · simp only [setPc_ne _ _ e] at hu; exact h.done u _ hu
  · intro u hu
    by_cases e : u = t
    · subst e; simp only [setPc_same] at hu; exact h3 hu
    · simp only [setPc_ne _ _ e] at hu; exact h.panicked u hu

/-- Outside of `start` and `Do`, the table has been built. -/
theorem onceInv_finished {tbl : List Nat} {req : Nat → List Rune} {s : State} (h : OnceInv tbl req s) (t : Nat)
    (h1 : s.pc t ≠ .start) (h2 : s.pc t ≠ .building) (h3 : s.pc t ≠ .built) : s.once = .finished := by
  cases ho : s.once with
  | finished => rfl
  | fresh => exact absurd ((h.notBuilt ho).2 t) h1
  | running u =>
    obtain ⟨a, b⟩ := h.running u ho
    by_cases e : t = u
    · subst e
      rcases a with a | a
      · exact absurd a.1 h2
      · exact absurd a.1 h3
    · exact absurd (b t e) h1

theorem onceInv_step (tbl : List Nat) (req : Nat → List Rune) (s s' : State) (t : Nat) (h : OnceInv tbl req s)
    (hs : step (.ok tbl) req t s = some s') : OnceInv tbl req s' := by
  unfold step at hs
  cases hpc : s.pc t with
  | start =>
    rw [hpc] at hs
    cases ho : s.once with
    | running u => rw [ho] at hs; cases hs
    | finished =>
      rw [ho] at hs
      have hs' : s' = { s with pc := setPc s.pc t (.reading (req t) 0) } := by
        have := Option.some.inj hs; rw [← this, ← ho]
      clear hs; subst hs'
      apply onceInv_local req s t _ h ho (by simp) (by simp)
      · intro rest sum he; cases he; exact ⟨[], rfl, rfl⟩
      · intro sum he; cases he
      · intro he; cases he
    | fresh =>
      rw [ho] at hs
      have hs' := Option.some.inj hs
      clear hs; subst hs'
      obtain ⟨hb, hall⟩ := h.notBuilt ho
      constructor
      · intro hf; cases hf
      · intro u hu
        have : t = u := by simpa using hu
        subst this
        refine ⟨Or.inl ⟨setPc_same _ _ _, hb⟩, fun v hv => ?_⟩
        simp only [setPc_ne _ _ hv]; exact hall v
      · intro hf; cases hf
      all_goals
        intro u
        by_cases e : u = t
        · subst e; simp [setPc_same]
        · simp [setPc_ne _ _ e, hall u]
  | building =>
    rw [hpc] at hs
    have hs' := Option.some.inj hs
    clear hs; subst hs'
    have ho : s.once = .running t ∧ s.builds = 0 := by
      cases ho : s.once with
      | fresh => have := (h.notBuilt ho).2 t; rw [hpc] at this; cases this
      | finished => exact absurd hpc ((h.finished ho).2.2 t).1
      | running u =>
        obtain ⟨a, b⟩ := h.running u ho
        by_cases e : t = u
        · subst e
          rcases a with a | a
          · exact ⟨rfl, a.2⟩
          · rw [hpc] at a; cases a.1
        · have := b t e; rw [hpc] at this; cases this
    have hall := (h.running t ho.1).2
    constructor
    · intro hf; exact absurd (ho.1.symm.trans hf) (by simp)
    · intro u hu
      have : t = u := by
        have := ho.1.symm.trans hu; simpa using this
      subst this
      refine ⟨Or.inr ⟨setPc_same _ _ _, by simp [ho.2], rfl⟩, fun v hv => ?_⟩
      simp only [setPc_ne _ _ hv]; exact hall v hv
    · intro hf; exact absurd (ho.1.symm.trans hf) (by simp)
    all_goals
      intro u
      by_cases e : u = t
      · subst e; simp [setPc_same]
      · simp [setPc_ne _ _ e, hall u e]
  | built =>
    rw [hpc] at hs
    have hs' := Option.some.inj hs
    clear hs; subst hs'
    have ho : s.once = .running t ∧ s.builds = 1 ∧ s.table = tbl := by
      cases ho : s.once with
      | fresh => have := (h.notBuilt ho).2 t; rw [hpc] at this; cases this
      | finished => exact absurd hpc ((h.finished ho).2.2 t).2
      | running u =>
        obtain ⟨a, b⟩ := h.running u ho
        by_cases e : t = u
        · subst e
          rcases a with a | a
          · rw [hpc] at a; cases a.1
          · exact ⟨rfl, a.2⟩
        · have := b t e; rw [hpc] at this; cases this
    have hall := (h.running t ho.1).2
    constructor
    · intro hf; cases hf
    · intro u hu; cases hu
    · intro _
      refine ⟨ho.2.1, ho.2.2, fun u => ?_⟩
      by_cases e : u = t
      · subst e; simp [setPc_same]
      · simp [setPc_ne _ _ e, hall u e]
    · intro u rest sum hu
      by_cases e : u = t
      · subst e; simp only [setPc_same] at hu; cases hu; exact ⟨[], rfl, rfl⟩
      · simp only [setPc_ne _ _ e] at hu; exact h.reading u _ _ hu
    all_goals
      intro u
      by_cases e : u = t
      · subst e; simp [setPc_same]
      · simp [setPc_ne _ _ e, hall u e]
  | reading rest sum =>
    have hfin := onceInv_finished h t (by simp [hpc]) (by simp [hpc]) (by simp [hpc])
    have htab := (h.finished hfin).2.1
    obtain ⟨pre, hpre, hsum⟩ := h.reading t rest sum hpc
    rw [hpc] at hs
    cases rest with
    | nil =>
      have hs' := Option.some.inj hs
      clear hs; subst hs'
      apply onceInv_local req s t _ h hfin (by simp) (by simp)
      · intro rest sum he; cases he
      · intro sum' he; cases he; rw [hpre, List.append_nil]; exact hsum
      · intro he; cases he
    | cons r rest =>
      simp only [htab] at hs
      cases hl : lookupRune tbl r with
      | ok w =>
        rw [hl] at hs
        have hs' : s' = { s with pc := setPc s.pc t (.reading rest (sum + w)) } := by
          rw [← Option.some.inj hs, ← htab]
        clear hs; subst hs'
        apply onceInv_local req s t _ h hfin (by simp) (by simp)
        · intro rest' sum' he
          cases he
          refine ⟨pre ++ [r], by simp [hpre], ?_⟩
          rw [widthsLoop_append, hsum]
          simp [widthsLoop, hl]
        · intro sum' he; cases he
        · intro he; cases he
      | error e =>
        rw [hl] at hs
        have hs' : s' = { s with pc := setPc s.pc t .panicked } := by
          rw [← Option.some.inj hs, ← htab]
        clear hs; subst hs'
        apply onceInv_local req s t _ h hfin (by simp) (by simp)
        · intro rest' sum' he; cases he
        · intro sum' he; cases he
        · intro _
          rw [hpre, widthsLoop_append, hsum]
          simp only [ok_bind, widthsLoop, hl, error_bind]
          rw [lookup_error_index _ _ _ hl]
  | done sum => rw [hpc] at hs; cases hs
  | panicked => rw [hpc] at hs; cases hs

theorem onceInv (tbl : List Nat) (req : Nat → List Rune) (s : State) (h : Reachable (.ok tbl) req s) : OnceInv tbl req s := by
  induction h with
  | init => exact onceInv_init tbl req
  | step t _ hs ih => exact onceInv_step tbl req _ _ t ih hs

theorem no_deadlock (tbl : List Nat) (req : Nat → List Rune) (s : State) (h : Reachable (.ok tbl) req s) (t : Nat)
    (ht : (∀ w, s.pc t ≠ .done w) ∧ s.pc t ≠ .panicked) : ∃ u s', step (.ok tbl) req u s = some s' := by
  have inv := onceInv tbl req s h
  cases hp : s.pc t with
  | done w => exact absurd hp (ht.1 w)
  | panicked => exact absurd hp ht.2
  | building => exact ⟨t, by unfold step; simp only [hp]; exact ⟨_, rfl⟩⟩
  | built => exact ⟨t, by unfold step; simp only [hp]; exact ⟨_, rfl⟩⟩
  | reading rest sum =>
    refine ⟨t, ?_⟩
    unfold step
    simp only [hp]
    cases rest with
    | nil => exact ⟨_, rfl⟩
    | cons r rest =>
      simp only
      cases lookupRune s.table r <;> exact ⟨_, rfl⟩
  | start =>
    cases ho : s.once with
    | fresh => exact ⟨t, by unfold step; simp only [hp, ho]; exact ⟨_, rfl⟩⟩
    | finished => exact ⟨t, by unfold step; simp only [hp, ho]; exact ⟨_, rfl⟩⟩
    | running u =>
      refine ⟨u, ?_⟩
      unfold step
      rcases (inv.running u ho).1 with a | a
      · simp only [a.1]; exact ⟨_, rfl⟩
      · simp only [a.1]; exact ⟨_, rfl⟩

end Verif.Props.Once

namespace Verif.Props
open Verif.Go Verif.Model Verif.Model.Once Verif.Proofs

/-- **C28.** The table is built at most once, whatever the interleaving. -/
theorem C28_built_once (req : Nat → List Rune) (s : State) (h : Reachable initTable req s) : s.builds ≤ 1 := by
  have inv := Once.onceInv theTable req s (Once.buildDefault ▸ h)
  cases ho : s.once with
  | fresh => have := (inv.notBuilt ho).1; omega
  | running t =>
    rcases (inv.running t ho).1 with a | a
    · omega
    · omega
  | finished => have := (inv.finished ho).1; omega

/-- **C28.** There is no data race: while a goroutine is about to write the table, or still is inside of
the function that writes it, no goroutine is at a point where it reads it; and at most one goroutine is
there. -/
theorem C28_no_race (req : Nat → List Rune) (s : State) (h : Reachable initTable req s) (t : Nat)
    (ht : s.pc t = .building ∨ s.pc t = .built) :
    ∀ u, u ≠ t → s.pc u = .start := by
  have inv := Once.onceInv theTable req s (Once.buildDefault ▸ h)
  intro u hu
  cases ho : s.once with
  | fresh => exact (inv.notBuilt ho).2 u
  | finished =>
    have := (inv.finished ho).2.2 t
    rcases ht with ht | ht
    · exact absurd ht this.1
    · exact absurd ht this.2
  | running v =>
    obtain ⟨_, b⟩ := inv.running v ho
    by_cases e : t = v
    · subst e; exact b u hu
    · have := b t e
      rcases ht with ht | ht <;> rw [ht] at this <;> cases this

/-- **C28.** Every goroutine that reads the table reads the complete one. -/
theorem C28_reads_complete_table (req : Nat → List Rune) (s : State) (h : Reachable initTable req s) (t : Nat)
    (rest : List Rune) (sum : Int) (ht : s.pc t = .reading rest sum) :
    initTable = .ok s.table := by
  have inv := Once.onceInv theTable req s (Once.buildDefault ▸ h)
  have hfin := Once.onceInv_finished inv t (by simp [ht]) (by simp [ht]) (by simp [ht])
  rw [Once.buildDefault, (inv.finished hfin).2.1]

/-- **C28.** Every call returns the result of the same call alone in a fresh program, and panics only
if that one panics. -/
theorem C28_sequential_result (req : Nat → List Rune) (s : State) (h : Reachable initTable req s) (t : Nat) :
    (∀ w, s.pc t = .done w → widthsOf WGlobals.init (req t) [] = .ok w) ∧
    (s.pc t = .panicked → widthsOf WGlobals.init (req t) [] = .error .index) := by
  have inv := Once.onceInv theTable req s (Once.buildDefault ▸ h)
  have key : widthsOf WGlobals.init (req t) [] = widthsLoop theTable (req t) 0 := by
    by_cases hr : ∃ r ∈ req t, r < 0 ∨ 0x10FFFF < r
    · rw [widthsOf_panic .start _ _ rfl hr, widthsLoop_panic _ _ hr]
    · have hr' : ∀ r ∈ req t, 0 ≤ r ∧ r ≤ 0x10FFFF := fun r hm => by
        have : ¬ (r < 0 ∨ 0x10FFFF < r) := fun h => hr ⟨r, hm, h⟩
        omega
      rw [widthsOf_table .start _ _ rfl hr', widthsLoop_spec _ _ hr', Int.zero_add]
  rw [key]
  exact ⟨fun w hw => inv.done t w hw, fun hp => inv.panicked t hp⟩

/-- **C28.** There is no deadlock. -/
theorem C28_no_deadlock (req : Nat → List Rune) (s : State) (h : Reachable initTable req s) (t : Nat)
    (ht : (∀ w, s.pc t ≠ .done w) ∧ s.pc t ≠ .panicked) : ∃ u s', step initTable req u s = some s' := by
  rw [Once.buildDefault] at h ⊢
  exact Once.no_deadlock theTable req s h t ht

/-- A concrete case: goroutine 1 enters `Do`, goroutine 2 then has to wait. -/
example : ∃ s, Reachable initTable (fun _ => [0x41]) s ∧ s.pc 1 = .building ∧ step initTable (fun _ => [0x41]) 2 s = none := by
  refine ⟨_, .step 1 .init rfl, rfl, rfl⟩

end Verif.Props
