import Verif.Model.Cache

/-! # Property C19: concurrent creation of hyphenators -/

namespace Verif.Props
open Verif.Model.Cache

variable {File : Type} [DecidableEq File]

/-- Between Lock and Unlock. -/
def Critical : Pc File → Prop
  | .start => False
  | .done _ => False
  | .panicked => False
  | _ => True

/-- The cache entry of a file. -/
def entry (s : State File) (f : File) : Option (Option (Dict File)) := s.cache.bind (fun m => m f)

structure CacheInv (req : Nat → File) (readable : File → Bool) (s : State File) : Prop where
  excl : ∀ t, Critical (s.pc t) → s.mutex = some t
  held : ∀ t, s.mutex = some t → Critical (s.pc t)
  noPanic : ∀ t, s.pc t ≠ .panicked
  alloc : ∀ t, Critical (s.pc t) → s.pc t ≠ .locked → s.cache ≠ none
  hit : ∀ f d, entry s f = some d → s.loads.count f = 1 ∧ d.map Dict.file = (if readable f then some f else none)
  miss : ∀ f, entry s f = none →
    s.loads.count f = 0 ∨ (s.loads.count f = 1 ∧ ∃ t d, s.pc t = .loaded d ∧ req t = f)
  looked : ∀ t e, s.pc t = .looked e → e = entry s (req t)
  loaded : ∀ t d, s.pc t = .loaded d → (entry s (req t) = some d ∨ entry s (req t) = none) ∧
    s.loads.count (req t) = 1 ∧ d.map Dict.file = (if readable (req t) then some (req t) else none)
  stored : ∀ t d, s.pc t = .stored d → entry s (req t) = some d
  done : ∀ t d, s.pc t = .done d → entry s (req t) = some d

theorem cacheInv_init (req : Nat → File) (readable : File → Bool) :
    CacheInv req readable init := by
  constructor <;> simp [init, entry, Critical]

omit [DecidableEq File] in
theorem setPc_same (pc : Nat → Pc File) (t : Nat) (p : Pc File) : setPc pc t p t = p := by simp [setPc]
omit [DecidableEq File] in
theorem setPc_ne (pc : Nat → Pc File) {t u : Nat} (p : Pc File) (h : u ≠ t) : setPc pc t p u = pc u := by
  simp [setPc, h]

theorem cacheInv_step (req : Nat → File) (readable : File → Bool) (s s' : State File) (t : Nat)
    (h : CacheInv req readable s) (hs : step req readable t s = some s') :
    CacheInv req readable s' := by
  have others : ∀ u, u ≠ t → Critical (s.pc t) → ¬ Critical (s.pc u) := by
    intro u hu ht hc
    have := h.excl t ht
    rw [h.excl u hc] at this
    exact hu (by simpa using this)
  unfold step at hs
  cases hpc : s.pc t with
  | start =>
    rw [hpc] at hs
    cases hm : s.mutex with
    | some m => rw [hm] at hs; cases hs
    | none =>
      rw [hm] at hs
      have hs' := Option.some.inj hs; subst hs'
      have noCrit : ∀ u, ¬ Critical (s.pc u) := fun u hu => by have := h.excl u hu; rw [hm] at this; cases this
      constructor
      · intro u hu
        by_cases e : u = t
        · subst e; rfl
        · simp only [setPc_ne _ _ e] at hu; exact absurd hu (noCrit u)
      · intro u hu
        have : t = u := by simpa using hu
        subst this; simp [setPc_same, Critical]
      · intro u
        by_cases e : u = t
        · subst e; simp [setPc_same]
        · simpa [setPc_ne _ _ e] using h.noPanic u
      · intro u hu hl
        by_cases e : u = t
        · subst e; simp [setPc_same] at hl
        · simp only [setPc_ne _ _ e] at hu; exact absurd hu (noCrit u)
      · exact h.hit
      · intro f hf
        rcases h.miss f hf with h1 | ⟨_, u, d, h2, _⟩
        · exact Or.inl h1
        · exact absurd (by simp [h2, Critical]) (noCrit u)
      · intro u e hu
        by_cases e' : u = t
        · subst e'; simp [setPc_same] at hu
        · simp only [setPc_ne _ _ e'] at hu; exact h.looked u e hu
      · intro u d hu
        by_cases e' : u = t
        · subst e'; simp [setPc_same] at hu
        · simp only [setPc_ne _ _ e'] at hu; exact h.loaded u d hu
      · intro u d hu
        by_cases e' : u = t
        · subst e'; simp [setPc_same] at hu
        · simp only [setPc_ne _ _ e'] at hu; exact h.stored u d hu
      · intro u d hu
        by_cases e' : u = t
        · subst e'; simp [setPc_same] at hu
        · simp only [setPc_ne _ _ e'] at hu; exact h.done u d hu
  | done d => rw [hpc] at hs; cases hs
  | panicked => rw [hpc] at hs; cases hs
  | locked =>
    have ht : Critical (s.pc t) := by simp [hpc, Critical]
    have hmx := h.excl t ht
    rw [hpc] at hs
    -- in both cases the entries are unchanged and the map exists
    have key : ∃ c, c ≠ none ∧ s' = { s with cache := c, pc := setPc s.pc t .ready } ∧
        ∀ f, (c.bind fun m => m f) = entry s f := by
      cases hc : s.cache with
      | none =>
        rw [hc] at hs
        exact ⟨some (fun _ => none), by simp, (Option.some.inj hs).symm, fun f => by simp [entry, hc]⟩
      | some m =>
        rw [hc] at hs
        exact ⟨some m, by simp, by rw [← Option.some.inj hs, ← hc], fun f => by simp [entry, hc]⟩
    obtain ⟨c, hc, rfl, he⟩ := key
    constructor
    · intro u hu
      by_cases e : u = t
      · subst e; exact hmx
      · simp only [setPc_ne _ _ e] at hu; exact absurd hu (others u e ht)
    · intro u hu
      have : u = t := by rw [hmx] at hu; simpa using hu.symm
      subst this; simp [setPc_same, Critical]
    · intro u
      by_cases e : u = t
      · subst e; simp [setPc_same]
      · simpa [setPc_ne _ _ e] using h.noPanic u
    · intro u _ _; exact hc
    · intro f d hf; exact h.hit f d ((he f).symm.trans hf)
    · intro f hf
      rcases h.miss f ((he f).symm.trans hf) with h1 | ⟨_, u, d, h2, _⟩
      · exact Or.inl h1
      · by_cases e : u = t
        · subst e; rw [hpc] at h2; cases h2
        · exact absurd (by simp [h2, Critical]) (others u e ht)
    all_goals
      intro u d hu
      by_cases e' : u = t
      · subst e'; simp [setPc_same] at hu
      · simp only [setPc_ne _ _ e'] at hu
        first
        | exact (he _).trans (h.done u d hu)
        | exact absurd (by simp [hu, Critical]) (others u e' ht)
  | ready =>
    have ht : Critical (s.pc t) := by simp [hpc, Critical]
    have hmx := h.excl t ht
    have hal := h.alloc t ht (by simp [hpc])
    rw [hpc] at hs
    cases hc : s.cache with
    | none => exact absurd hc hal
    | some m =>
      rw [hc] at hs
      have hs' : s' = { s with pc := setPc s.pc t (.looked (m (req t))) } := by
        have := Option.some.inj hs
        rw [← this, ← hc]
      clear hs
      subst hs'
      constructor
      · intro u hu
        by_cases e : u = t
        · subst e; exact hmx
        · simp only [setPc_ne _ _ e] at hu; exact absurd hu (others u e ht)
      · intro u hu
        have : u = t := by rw [hmx] at hu; simpa using hu.symm
        subst this; simp [setPc_same, Critical]
      · intro u
        by_cases e : u = t
        · subst e; simp [setPc_same]
        · simpa [setPc_ne _ _ e] using h.noPanic u
      · intro u _ _; exact hal
      · exact h.hit
      · intro f hf
        rcases h.miss f hf with h1 | ⟨_, u, d, h2, _⟩
        · exact Or.inl h1
        · by_cases e : u = t
          · subst e; rw [hpc] at h2; cases h2
          · exact absurd (by simp [h2, Critical]) (others u e ht)
      · intro u e hu
        by_cases e' : u = t
        · subst e'
          simp only [setPc_same] at hu
          cases hu
          simp [entry, hc]
        · simp only [setPc_ne _ _ e'] at hu
          exact absurd (by simp [hu, Critical]) (others u e' ht)
      all_goals
        intro u d hu
        by_cases e' : u = t
        · subst e'; simp [setPc_same] at hu
        · simp only [setPc_ne _ _ e'] at hu
          first
          | exact h.done u d hu
          | exact absurd (by simp [hu, Critical]) (others u e' ht)
  | looked e0 =>
    have ht : Critical (s.pc t) := by simp [hpc, Critical]
    have hmx := h.excl t ht
    have hal := h.alloc t ht (by simp [hpc])
    have hlk := h.looked t e0 hpc
    rw [hpc] at hs
    cases e0 with
    | some d0 =>
      have hs' := Option.some.inj hs; subst hs'
      have hhit := h.hit (req t) d0 hlk.symm
      constructor
      · intro u hu
        by_cases e : u = t
        · subst e; exact hmx
        · simp only [setPc_ne _ _ e] at hu; exact absurd hu (others u e ht)
      · intro u hu
        have : u = t := by rw [hmx] at hu; simpa using hu.symm
        subst this; simp [setPc_same, Critical]
      · intro u
        by_cases e : u = t
        · subst e; simp [setPc_same]
        · simpa [setPc_ne _ _ e] using h.noPanic u
      · intro u _ _; exact hal
      · exact h.hit
      · intro f hf
        rcases h.miss f hf with h1 | ⟨_, u, d, h2, _⟩
        · exact Or.inl h1
        · by_cases e : u = t
          · subst e; rw [hpc] at h2; cases h2
          · exact absurd (by simp [h2, Critical]) (others u e ht)
      · intro u e hu
        by_cases e' : u = t
        · subst e'; simp [setPc_same] at hu
        · simp only [setPc_ne _ _ e'] at hu
          exact absurd (by simp [hu, Critical]) (others u e' ht)
      · intro u d hu
        by_cases e' : u = t
        · subst e'
          simp only [setPc_same] at hu; cases hu
          exact ⟨Or.inl hlk.symm, hhit⟩
        · simp only [setPc_ne _ _ e'] at hu
          exact absurd (by simp [hu, Critical]) (others u e' ht)
      all_goals
        intro u d hu
        by_cases e' : u = t
        · subst e'; simp [setPc_same] at hu
        · simp only [setPc_ne _ _ e'] at hu
          first
          | exact h.done u d hu
          | exact absurd (by simp [hu, Critical]) (others u e' ht)
    | none =>
      -- the load
      have hzero : s.loads.count (req t) = 0 := by
        rcases h.miss (req t) hlk.symm with h1 | ⟨_, u, d, h2, _⟩
        · exact h1
        · by_cases e : u = t
          · subst e; rw [hpc] at h2; cases h2
          · exact absurd (by simp [h2, Critical]) (others u e ht)
      have key : ∃ d n, s' = { s with pc := setPc s.pc t (.loaded d), nextId := n, loads := req t :: s.loads } ∧
          d.map Dict.file = (if readable (req t) then some (req t) else none) := by
        by_cases hr : readable (req t) = true
        · simp only [hr, if_true] at hs
          exact ⟨_, _, (Option.some.inj hs).symm, by simp [hr]⟩
        · simp only [hr] at hs
          exact ⟨none, s.nextId, (Option.some.inj hs).symm, by simp [hr]⟩
      obtain ⟨d0, n, rfl, hd0⟩ := key
      constructor
      · intro u hu
        by_cases e : u = t
        · subst e; exact hmx
        · simp only [setPc_ne _ _ e] at hu; exact absurd hu (others u e ht)
      · intro u hu
        have : u = t := by rw [hmx] at hu; simpa using hu.symm
        subst this; simp [setPc_same, Critical]
      · intro u
        by_cases e : u = t
        · subst e; simp [setPc_same]
        · simpa [setPc_ne _ _ e] using h.noPanic u
      · intro u _ _; exact hal
      · intro f d hf
        have hne : f ≠ req t := by
          intro e; subst e
          have : entry s (req t) = some d := hf
          rw [← hlk] at this; cases this
        have := h.hit f d hf
        refine ⟨?_, this.2⟩
        rw [List.count_cons, this.1]
        have : (req t == f) = false := by simpa using fun e => hne e.symm
        simp [this]
      · intro f hf
        by_cases e : f = req t
        · subst e
          right
          refine ⟨by simp [hzero], t, d0, setPc_same _ _ _, rfl⟩
        · have h2 : (req t == f) = false := by simpa using fun e' => e e'.symm
          rcases h.miss f hf with h1 | ⟨_, u, d, h3, _⟩
          · left; simp [List.count_cons, h1, h2]
          · by_cases e : u = t
            · subst e; rw [hpc] at h3; cases h3
            · exact absurd (by simp [h3, Critical]) (others u e ht)
      · intro u e hu
        by_cases e' : u = t
        · subst e'; simp [setPc_same] at hu
        · simp only [setPc_ne _ _ e'] at hu
          exact absurd (by simp [hu, Critical]) (others u e' ht)
      · intro u d hu
        by_cases e' : u = t
        · subst e'
          simp only [setPc_same] at hu; cases hu
          exact ⟨Or.inr hlk.symm, by simp [hzero], hd0⟩
        · simp only [setPc_ne _ _ e'] at hu
          exact absurd (by simp [hu, Critical]) (others u e' ht)
      all_goals
        intro u d hu
        by_cases e' : u = t
        · subst e'; simp [setPc_same] at hu
        · simp only [setPc_ne _ _ e'] at hu
          first
          | exact h.done u d hu
          | exact absurd (by simp [hu, Critical]) (others u e' ht)
  | loaded d0 =>
    have ht : Critical (s.pc t) := by simp [hpc, Critical]
    have hmx := h.excl t ht
    have hal := h.alloc t ht (by simp [hpc])
    obtain ⟨hl1, hl2, hl3⟩ := h.loaded t d0 hpc
    rw [hpc] at hs
    cases hc : s.cache with
    | none => exact absurd hc hal
    | some m =>
      rw [hc] at hs
      have hs' := Option.some.inj hs; subst hs'
      have hent : ∀ f, entry s f = m f := by intro f; simp [entry, hc]
      -- entries never change once set
      have keep : ∀ f d, entry s f = some d → (if f = req t then some d0 else m f) = some d := by
        intro f d hf
        by_cases e : f = req t
        · subst e
          rcases hl1 with h1 | h1 <;> rw [h1] at hf <;> cases hf
          simp
        · simp only [if_neg e]; rw [← hent, hf]
      constructor
      · intro u hu
        by_cases e : u = t
        · subst e; exact hmx
        · simp only [setPc_ne _ _ e] at hu; exact absurd hu (others u e ht)
      · intro u hu
        have : u = t := by rw [hmx] at hu; simpa using hu.symm
        subst this; simp [setPc_same, Critical]
      · intro u
        by_cases e : u = t
        · subst e; simp [setPc_same]
        · simpa [setPc_ne _ _ e] using h.noPanic u
      · intro u _ _; simp
      · intro f d hf
        simp only [entry, Option.bind_some] at hf
        by_cases e : f = req t
        · subst e; simp at hf; subst hf; exact ⟨hl2, hl3⟩
        · simp only [if_neg e] at hf
          exact h.hit f d (by rw [hent, hf])
      · intro f hf
        simp only [entry, Option.bind_some] at hf
        by_cases e : f = req t
        · subst e; simp at hf
        · simp only [if_neg e] at hf
          rcases h.miss f (by rw [hent, hf]) with h1 | ⟨_, u, d, h2, h3⟩
          · exact Or.inl h1
          · by_cases e' : u = t
            · subst e'; exact absurd h3.symm e
            · exact absurd (by simp [h2, Critical]) (others u e' ht)
      · intro u e hu
        by_cases e' : u = t
        · subst e'; simp [setPc_same] at hu
        · simp only [setPc_ne _ _ e'] at hu
          exact absurd (by simp [hu, Critical]) (others u e' ht)
      · intro u d hu
        by_cases e' : u = t
        · subst e'; simp [setPc_same] at hu
        · simp only [setPc_ne _ _ e'] at hu
          exact absurd (by simp [hu, Critical]) (others u e' ht)
      · intro u d hu
        by_cases e' : u = t
        · subst e'
          simp only [setPc_same] at hu; cases hu
          simp [entry]
        · simp only [setPc_ne _ _ e'] at hu
          exact absurd (by simp [hu, Critical]) (others u e' ht)
      · intro u d hu
        by_cases e' : u = t
        · subst e'; simp [setPc_same] at hu
        · simp only [setPc_ne _ _ e'] at hu
          exact keep _ _ (h.done u d hu)
  | stored d0 =>
    have ht : Critical (s.pc t) := by simp [hpc, Critical]
    rw [hpc] at hs
    have hs' := Option.some.inj hs; subst hs'
    constructor
    · intro u hu
      by_cases e : u = t
      · subst e; simp [setPc_same, Critical] at hu
      · simp only [setPc_ne _ _ e] at hu; exact absurd hu (others u e ht)
    · intro u hu; cases hu
    · intro u
      by_cases e : u = t
      · subst e; simp [setPc_same]
      · simpa [setPc_ne _ _ e] using h.noPanic u
    · intro u hu hl
      by_cases e : u = t
      · subst e; simp [setPc_same, Critical] at hu
      · simp only [setPc_ne _ _ e] at hu; exact absurd hu (others u e ht)
    · exact h.hit
    · intro f hf
      rcases h.miss f hf with h1 | ⟨_, u, d, h2, _⟩
      · exact Or.inl h1
      · by_cases e : u = t
        · subst e; rw [hpc] at h2; cases h2
        · exact absurd (by simp [h2, Critical]) (others u e ht)
    · intro u e hu
      by_cases e' : u = t
      · subst e'; simp [setPc_same] at hu
      · simp only [setPc_ne _ _ e'] at hu
        exact absurd (by simp [hu, Critical]) (others u e' ht)
    · intro u d hu
      by_cases e' : u = t
      · subst e'; simp [setPc_same] at hu
      · simp only [setPc_ne _ _ e'] at hu
        exact absurd (by simp [hu, Critical]) (others u e' ht)
    · intro u d hu
      by_cases e' : u = t
      · subst e'; simp [setPc_same] at hu
      · simp only [setPc_ne _ _ e'] at hu
        exact absurd (by simp [hu, Critical]) (others u e' ht)
    · intro u d hu
      by_cases e' : u = t
      · subst e'
        simp only [setPc_same] at hu; cases hu
        exact h.stored u _ hpc
      · simp only [setPc_ne _ _ e'] at hu
        exact h.done u d hu

theorem cacheInv (req : Nat → File) (readable : File → Bool) (s : State File)
    (h : Reachable req readable s) : CacheInv req readable s := by
  induction h with
  | init => exact cacheInv_init req readable
  | step t _ hs ih => exact cacheInv_step req readable _ _ t ih hs

/-- **C19.** In every state reached by any interleaving of any number of goroutines, each pattern file
has been loaded at most once. -/
theorem C19_loaded_once (req : Nat → File) (readable : File → Bool) (s : State File)
    (h : Reachable req readable s) (f : File) : s.loads.count f ≤ 1 := by
  have inv := cacheInv req readable s h
  cases he : entry s f with
  | some d => have := (inv.hit f d he).1; omega
  | none =>
    rcases inv.miss f he with h1 | ⟨h1, _⟩ <;> omega

/-- **C19.** All calls for the same file return the same dictionary (the same pointer). -/
theorem C19_same_dictionary (req : Nat → File) (readable : File → Bool) (s : State File)
    (h : Reachable req readable s) (t u : Nat) (d d' : Option (Dict File))
    (ht : s.pc t = .done d) (hu : s.pc u = .done d') (hf : req t = req u) : d = d' := by
  have inv := cacheInv req readable s h
  have h1 := inv.done t d ht
  have h2 := inv.done u d' hu
  rw [hf, h2] at h1
  exact (Option.some.inj h1).symm

/-- **C19.** The dictionary returned is the one of the requested file; it is nil only if that file
cannot be loaded. -/
theorem C19_right_dictionary (req : Nat → File) (readable : File → Bool) (s : State File)
    (h : Reachable req readable s) (t : Nat) (d : Option (Dict File)) (ht : s.pc t = .done d) :
    d.map Dict.file = if readable (req t) then some (req t) else none := by
  have inv := cacheInv req readable s h
  exact (inv.hit _ _ (inv.done t d ht)).2

/-- **C19.** At most one goroutine at a time is between Lock and Unlock, where all the accesses to the
cache are: there is no data race. No goroutine panics. -/
theorem C19_no_race (req : Nat → File) (readable : File → Bool) (s : State File)
    (h : Reachable req readable s) :
    (∀ t u, Critical (s.pc t) → Critical (s.pc u) → t = u) ∧ ∀ t, s.pc t ≠ .panicked := by
  have inv := cacheInv req readable s h
  refine ⟨fun t u ht hu => ?_, inv.noPanic⟩
  have h1 := inv.excl t ht
  rw [inv.excl u hu] at h1
  exact (Option.some.inj h1).symm

/-- **C19.** There is no deadlock: as long as some call has not returned, some goroutine can make a
step. -/
theorem C19_no_deadlock (req : Nat → File) (readable : File → Bool) (s : State File)
    (h : Reachable req readable s) (t : Nat) (ht : ∀ d, s.pc t ≠ .done d) :
    ∃ u s', step req readable u s = some s' := by
  have inv := cacheInv req readable s h
  have crit : ∀ u, Critical (s.pc u) → ∃ u s', step req readable u s = some s' := by
    intro u hu
    refine ⟨u, ?_⟩
    unfold step
    cases hp : s.pc u with
    | start => rw [hp] at hu; exact absurd hu (by simp [Critical])
    | done d => rw [hp] at hu; exact absurd hu (by simp [Critical])
    | panicked => rw [hp] at hu; exact absurd hu (by simp [Critical])
    | locked => cases s.cache <;> exact ⟨_, rfl⟩
    | ready => cases s.cache <;> exact ⟨_, rfl⟩
    | looked e =>
      cases e with
      | some d => exact ⟨_, rfl⟩
      | none => by_cases hr : readable (req u) = true <;> simp [hr]
    | loaded d => cases s.cache <;> exact ⟨_, rfl⟩
    | stored d => exact ⟨_, rfl⟩
  cases hp : s.pc t with
  | done d => exact absurd hp (ht d)
  | panicked => exact absurd hp (inv.noPanic t)
  | start =>
    cases hm : s.mutex with
    | some u => exact crit u (inv.held u hm)
    | none => exact ⟨t, by unfold step; rw [hp, hm]; exact ⟨_, rfl⟩⟩
  | _ => exact crit t (by simp [hp, Critical])

/-- Runs the goroutines in the given order. -/
def runSchedule (req : Nat → File) (readable : File → Bool) : List Nat → State File → Option (State File)
  | [], s => some s
  | t :: ts, s => (step req readable t s).bind (runSchedule req readable ts)

theorem runSchedule_reachable (req : Nat → File) (readable : File → Bool) :
    ∀ (ts : List Nat) (s s' : State File), Reachable req readable s →
      runSchedule req readable ts s = some s' → Reachable req readable s' := by
  intro ts
  induction ts with
  | nil => intro s s' h hs; cases hs; exact h
  | cons t ts ih =>
    intro s s' h hs
    simp only [runSchedule] at hs
    cases h1 : step req readable t s with
    | none => rw [h1] at hs; cases hs
    | some s1 => rw [h1] at hs; exact ih s1 s' (.step t h h1) hs

/-- A concrete case: goroutines 1 and 2 ask for the same file, one after the other; both are done with
the same dictionary, and there was one load. -/
example : ∃ s, Reachable (File := String) (fun _ => "fr") (fun _ => true) s ∧
    s.pc 1 = .done (some ⟨"fr", 0⟩) ∧ s.pc 2 = .done (some ⟨"fr", 0⟩) ∧ s.loads = ["fr"] := by
  have h : ∃ s, runSchedule (fun _ => "fr") (fun _ => true) [1, 1, 1, 1, 1, 1, 2, 2, 2, 2, 2, 2]
      (init : State String) = some s ∧
      s.pc 1 = .done (some ⟨"fr", 0⟩) ∧ s.pc 2 = .done (some ⟨"fr", 0⟩) ∧ s.loads = ["fr"] :=
    ⟨_, rfl, rfl, rfl, rfl⟩
  obtain ⟨s, h1, h2⟩ := h
  exact ⟨s, runSchedule_reachable _ _ _ _ _ .init h1, h2⟩

end Verif.Props
