import Verif.Lemmas.Contractor

/-! # C14: contractor search returns the best admissible contractor -/

namespace Sampo.C14

/-- A contractor the specification allows: it is named there, or nobody is named. -/
def Admissible (spec : WorkSpec) (c : Contractor) : Prop := spec.contractors = [] ∨ c.id ∈ spec.contractors

private theorem mem_filter {spec : WorkSpec} {cs : List Contractor} {c : Contractor} :
    c ∈ spec.filter cs ↔ c ∈ cs ∧ Admissible spec c := by
  simp [WorkSpec.filter, WorkSpec.enabled, Admissible]

/-- The result of a successful search: an admissible contractor of the list with a finite finish time; every admissible
contractor with a finite finish time finishes later, or at the same time and is not smaller; those earlier in the list
(`l₁`) are strictly worse, so the first one wins a full tie.  Start, finish and team are those the runner gives for it. -/
theorem search_returns_best {τ : Type} (runner : Contractor → Option (Int × Int × τ))
    (ht : ∀ c r, runner c = some r → IsTime r.2.1) (contractors : List Contractor) (spec : WorkSpec)
    (start finish : Int) (c : Contractor) (team : τ)
    (h : runContractorSearch contractors spec runner = some (some (start, finish, c, team))) :
    runner c = some (start, finish, team) ∧ tIsInf finish = false ∧
    ∃ l₁ l₂, contractors.filter (fun c => spec.enabled c.id) = l₁ ++ c :: l₂ ∧
      (∀ c' ∈ contractors, Admissible spec c' → c' ∈ l₁ ++ c :: l₂) ∧ c ∈ contractors ∧ Admissible spec c ∧
      (∀ c' ∈ l₁, ∀ s f t, runner c' = some (s, f, t) → tIsInf f = false → finish < f ∨ (finish = f ∧ c.size < c'.size)) ∧
      (∀ c' ∈ l₂, ∀ s f t, runner c' = some (s, f, t) → tIsInf f = false → finish < f ∨ (finish = f ∧ c.size ≤ c'.size)) := by
  simp only [runContractorSearch, Option.bind_eq_some_iff] at h
  obtain ⟨best, hl, h⟩ := h
  have hb := searchLoop_bestOf ht _ [] none best (by intro c hc; simp at hc) hl
  match best with
  | none => simp at h
  | some (f, b, s) =>
    obtain ⟨hs, l₁, l₂, rb, hd, hrb, hfb, hfin, h1, h2⟩ := hb
    simp only [Option.bind_eq_some_iff, Option.some.injEq, Prod.mk.injEq] at h
    obtain ⟨r, hr, rfl, rfl, rfl, rfl⟩ := h
    rw [hrb] at hr; cases hr
    subst hfb
    have hd' : spec.filter contractors = l₁ ++ b :: l₂ := by simpa using hd
    have hmem : b ∈ spec.filter contractors := by rw [hd']; simp
    refine ⟨hrb, hfin, l₁, l₂, hd', ?_, (mem_filter.mp hmem).1, (mem_filter.mp hmem).2, ?_, ?_⟩
    · intro c' hc' ha
      rw [← hd']; exact mem_filter.mpr ⟨hc', ha⟩
    · exact fun c' hc' s f t hr hf => h1 c' hc' (s, f, t) hr hf
    · exact fun c' hc' s f t hr hf => h2 c' hc' (s, f, t) hr hf

/-- The search raises `NoSufficientContractorError` exactly when no admissible contractor has a finite finish time (for
runners that do not raise). -/
theorem search_fails_iff {τ : Type} (runner : Contractor → Option (Int × Int × τ))
    (ht : ∀ c r, runner c = some r → IsTime r.2.1) (contractors : List Contractor) (spec : WorkSpec)
    (hrun : ∀ c ∈ contractors, ∃ r, runner c = some r) :
    runContractorSearch contractors spec runner = some none ↔
      ∀ c ∈ contractors, Admissible spec c → ∀ s f t, runner c = some (s, f, t) → tIsInf f = true := by
  have hsome : (searchLoop runner (spec.filter contractors) none).isSome := by
    rw [← searchLoop_isSome]
    intro c hc
    obtain ⟨r, hr⟩ := hrun c (mem_filter.mp hc).1
    simp [hr]
  obtain ⟨best, hl⟩ := Option.isSome_iff_exists.mp hsome
  have hb := searchLoop_bestOf ht _ [] none best (by intro c hc; simp at hc) hl
  simp only [runContractorSearch, hl, Option.bind_some]
  match best with
  | none =>
    simp only [true_iff]
    intro c hc ha s f t hr
    exact hb c (by simpa using mem_filter.mpr ⟨hc, ha⟩) _ hr
  | some (f, b, s) =>
    obtain ⟨hs, l₁, l₂, rb, hd, hrb, hfb, hfin, h1, h2⟩ := hb
    simp only [hrb, Option.bind_some, Option.some.injEq, reduceCtorEq, false_iff]
    intro hall
    have hmem : b ∈ spec.filter contractors := by
      have hd' : spec.filter contractors = l₁ ++ b :: l₂ := by simpa using hd
      rw [hd']; simp
    have := hall b (mem_filter.mp hmem).1 (mem_filter.mp hmem).2 rb.1 rb.2.1 rb.2.2 hrb
    rw [hfb, hfin] at this
    simp at this

/-- The search itself never raises anything else. -/
theorem search_raises_only_with_runner {τ : Type} (runner : Contractor → Option (Int × Int × τ))
    (contractors : List Contractor) (spec : WorkSpec) (hrun : ∀ c ∈ contractors, Admissible spec c → ∃ r, runner c = some r)
    (ht : ∀ c r, runner c = some r → IsTime r.2.1) :
    ∃ res, runContractorSearch contractors spec runner = some res := by
  have hsome : (searchLoop runner (spec.filter contractors) none).isSome := by
    rw [← searchLoop_isSome]
    intro c hc
    obtain ⟨r, hr⟩ := hrun c (mem_filter.mp hc).1 (mem_filter.mp hc).2
    simp [hr]
  obtain ⟨best, hl⟩ := Option.isSome_iff_exists.mp hsome
  have hb := searchLoop_bestOf ht _ [] none best (by intro c hc; simp at hc) hl
  simp only [runContractorSearch, hl, Option.bind_some]
  match best with
  | none => exact ⟨_, rfl⟩
  | some (f, b, s) =>
    obtain ⟨hs, l₁, l₂, rb, hd, hrb, hfb, hfin, h1, h2⟩ := hb
    exact ⟨_, by simp [hrb]; rfl⟩

-- four contractors: 0 is not admissible, 1 never finishes, 2 and 3 tie in finish time and 3 is smaller
private def cs : List Contractor := [⟨0, [(0, 1)]⟩, ⟨1, [(0, 9)]⟩, ⟨2, [(0, 3), (1, 4)]⟩, ⟨3, [(0, 5)]⟩]
private def run (c : Contractor) : Option (Int × Int × Unit) :=
  some (0, if c.id = 0 then 1 else if c.id = 1 then timeInf else 20, ())
example : runContractorSearch cs ⟨[1, 2, 3], []⟩ run = some (some (0, 20, ⟨3, [(0, 5)]⟩, ())) := by decide
example : runContractorSearch cs ⟨[1], []⟩ run = some none := by decide
example : ∀ c r, run c = some r → IsTime r.2.1 := by
  intro c r h
  simp only [run, Option.some.injEq] at h
  subst h
  simp only
  split
  · decide
  · split <;> decide
example : ∀ c ∈ cs, ∃ r, run c = some r := fun c _ => ⟨_, rfl⟩

end Sampo.C14
