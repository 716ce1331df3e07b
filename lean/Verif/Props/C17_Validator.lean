import Verif.Lemmas.Validate
import Mathlib.Algebra.Order.BigOperators.Group.List

/-!
# C17: the schedule validator accepts only executable schedules

`accepted_is_executable_partial` proves all parts of the claim for teams with workers of one contractor, except that a team
has workers of every required kind.  Two concrete schedules show why: `missing_kind_accepted`, `mixed_team_accepted`.
-/

namespace Sampo.C17

open Validate

/-- The scheduled works as intervals in which their teams are busy. -/
def placements (works : List SWork) : List Placement := works.map fun w => ⟨w.workers, w.start, w.finish, false⟩

variable {inp : Input} {contractors : List (Nat × List (Nat × Int))} {works : List SWork}

private theorem byId_some {id : Nat} {w : SWork} (h : byId works id = some w) : w ∈ works ∧ w.id = id := by
  unfold byId at h
  exact ⟨by simpa using List.mem_of_find?_eq_some h, by simpa using List.find?_some h⟩

private theorem byId_unique (hn : (works.map (·.id)).Nodup) {w : SWork} (hw : w ∈ works) : byId works w.id = some w := by
  cases h : byId works w.id with
  | none =>
    unfold byId at h
    rw [List.find?_eq_none] at h
    exact absurd (h w (by simpa using hw)) (by simp)
  | some x =>
    obtain ⟨h1, h2⟩ := byId_some h
    rw [List.inj_on_of_nodup_map hn h1 hw h2]

private theorem checks (h : validate inp contractors works = true) (hfin : ∀ w ∈ works, max w.start w.finish < TIME_INF) :
    allScheduled inp works = true ∧ parentsDone inp works = true ∧ contractorsEnabled inp works = true ∧
      serviceInstant works = true ∧ teamsFit inp works = true ∧ withinCapacity contractors works = true := by
  unfold validate at h
  split at h
  · simp at h
  · rename_i t ht
    unfold executionTime at ht
    rw [Option.map_eq_some_iff] at ht
    obtain ⟨w, hw, rfl⟩ := ht
    have := hfin w (List.mem_of_getLast? hw)
    rw [if_neg (by have : timeInf = TIME_INF := by decide
                   omega)] at h
    simpa [and_assoc] using h

/-- A finite schedule in which every work occurs once and that the validator accepts has all works of the graph; every
predecessor finishes not after its successors start; the contractors are enabled by the specification; service works take no
time; each worker of a team is of a required kind and their number is within the limits of the requirement; and, if teams have
workers of one contractor, at no moment more workers of a contractor are busy than it has. -/
theorem accepted_is_executable_partial (h : validate inp contractors works = true)
    (hfin : ∀ w ∈ works, max w.start w.finish < TIME_INF) (hids : (works.map (·.id)).Nodup) :
    (∀ v ∈ inp.nodes, ∃ w ∈ works, w.id = v) ∧
    (∀ w ∈ works, w.id ∈ inp.nodes) ∧
    (∀ w ∈ works, ∀ p ∈ inp.parents w.id, ∃ q ∈ works, q.id = p ∧ q.start ≤ q.finish ∧ q.finish ≤ w.start ∧
      w.start ≤ w.finish) ∧
    (∀ w ∈ works, inp.enabled w.id = [] ∨ w.contractor ∈ inp.enabled w.id) ∧
    (∀ w ∈ works, w.service = true → w.start = w.finish) ∧
    (∀ w ∈ works, ∀ x ∈ w.workers, ∃ r ∈ inp.reqs w.id, r.kind = x.name ∧ r.min ≤ x.count ∧ x.count ≤ r.max) ∧
    ((∀ w ∈ works, ∃ c, ∀ x ∈ w.workers, x.contractor = c) →
      (∀ c ∈ contractors, ∀ w ∈ c.2, 0 ≤ w.2) →
      (∀ v ∈ inp.nodes, inp.parents v ≠ [] ∨ ∃ u ∈ inp.nodes, v ∈ inp.parents u) →
      ∀ t k, busy (placements works) k t ≤ (pool contractors k).getD 0) := by
  obtain ⟨c1, c2, c3, c4, c5, c6⟩ := checks h hfin
  have hnode : ∀ w ∈ works, w.id ∈ inp.nodes := by
    intro w hw
    have := List.all_eq_true.1 c5 w hw
    simp only [Bool.and_eq_true] at this
    simpa using this.1
  have hpar : ∀ v ∈ inp.nodes, ∀ w, byId works v = some w → ∀ p ∈ inp.parents v, ∃ q, byId works p = some q ∧
      q.start ≤ q.finish ∧ q.finish ≤ w.start ∧ w.start ≤ w.finish := by
    intro v hv w hw p hp
    have h1 := List.all_eq_true.1 c2 v hv
    rw [hw] at h1
    have h2 := List.all_eq_true.1 h1 p hp
    cases hq : byId works p with
    | none => rw [hq] at h2; simp at h2
    | some q => rw [hq] at h2; exact ⟨q, rfl, by simpa using h2⟩
  refine ⟨?_, hnode, ?_, ?_, ?_, ?_, ?_⟩
  · intro v hv
    have := List.all_eq_true.1 c1 v hv
    obtain ⟨w, hw⟩ := Option.isSome_iff_exists.1 this
    exact ⟨w, byId_some hw⟩
  · intro w hw p hp
    obtain ⟨q, hq, hle⟩ := hpar w.id (hnode w hw) w (byId_unique hids hw) p hp
    exact ⟨q, (byId_some hq).1, (byId_some hq).2, hle⟩
  · intro w hw
    have := List.all_eq_true.1 c3 w.id (hnode w hw)
    rw [Bool.or_eq_true, byId_unique hids hw] at this
    rcases this with h1 | h1
    · exact Or.inl (by simpa using h1)
    · exact Or.inr (by simpa using h1)
  · intro w hw hs
    have := List.all_eq_true.1 c4 w hw
    rw [hs] at this
    have h0 : tSub w.finish w.start = 0 := by simpa using this
    unfold tSub mkTime at h0
    have : TIME_INF = 2000000000 := rfl
    split at h0
    · omega
    · split at h0
      · omega
      · omega
  · intro w hw x hx
    have := List.all_eq_true.1 c5 w hw
    simp only [Bool.and_eq_true] at this
    have h1 := List.all_eq_true.1 this.2 x hx
    split at h1
    · simp at h1
    · rename_i r hr
      refine ⟨r, by simpa using List.mem_of_find?_eq_some hr, by simpa using List.find?_some hr, ?_⟩
      simpa using h1
  · intro hone hcnt hconn t k
    have hle : ∀ w ∈ works, w.start ≤ w.finish := by
      intro w hw
      rcases hconn w.id (hnode w hw) with hp | ⟨u, hu, hp⟩
      · obtain ⟨p, hp⟩ := List.exists_mem_of_ne_nil _ hp
        obtain ⟨q, -, h1⟩ := hpar w.id (hnode w hw) w (byId_unique hids hw) p hp
        exact h1.2.2
      · have := List.all_eq_true.1 c1 u hu
        obtain ⟨x, hx⟩ := Option.isSome_iff_exists.1 this
        obtain ⟨q, hq, h1⟩ := hpar u hu x hx w.id hp
        rw [byId_unique hids hw, Option.some.injEq] at hq
        rw [hq]
        exact h1.1
    have hpool : ∀ k i, pool contractors k = some i → 0 ≤ i := by
      intro k i hk
      unfold pool at hk
      split at hk
      · simp at hk
      · rename_i c hc
        simp only at hk
        split at hk
        · simp at hk
        · rw [Option.some.injEq] at hk
          rw [← hk]
          apply List.sum_nonneg
          intro x hx
          obtain ⟨y, hy, rfl⟩ := List.mem_map.1 hx
          exact hcnt c (by simpa using List.mem_of_find?_eq_some hc) y (List.mem_filter.1 hy).1
    have := withinCapacity_sound hpool hle c6 t k
    have heq : asPlacements works = placements works := by
      unfold asPlacements placements
      apply List.map_congr_left
      intro w hw
      obtain ⟨c, hc⟩ := hone w hw
      rw [charged_of_one hc]
    rw [heq] at this
    exact this

/-- The other direction: the validator raises no false alarm.  A schedule in which every work of the graph occurs once and whose works
have the listed properties is accepted. -/
theorem executable_is_accepted (hne : works ≠ []) (hids : (works.map (·.id)).Nodup)
    (hall : ∀ v ∈ inp.nodes, ∃ w ∈ works, w.id = v) (hnodes : ∀ w ∈ works, w.id ∈ inp.nodes)
    (hle : ∀ w ∈ works, w.start ≤ w.finish)
    (hpar : ∀ w ∈ works, ∀ p ∈ inp.parents w.id, ∃ q ∈ works, q.id = p ∧ q.finish ≤ w.start)
    (hspec : ∀ w ∈ works, inp.enabled w.id = [] ∨ w.contractor ∈ inp.enabled w.id)
    (hserv : ∀ w ∈ works, w.service = true → w.start = w.finish)
    (hkinds : ∀ v, ((inp.reqs v).map (·.kind)).Nodup)
    (hreq : ∀ w ∈ works, ∀ x ∈ w.workers, ∃ r ∈ inp.reqs w.id, r.kind = x.name ∧ r.min ≤ x.count ∧ x.count ≤ r.max)
    (hone : ∀ w ∈ works, ∃ c, ∀ x ∈ w.workers, x.contractor = c)
    (hcount : ∀ w ∈ works, ∀ x ∈ w.workers, 0 ≤ x.count)
    (hown : ∀ w ∈ works, ∀ x ∈ w.workers, ∃ i, pool contractors x.agent = some i)
    (hpool : ∀ c ∈ contractors, ∀ w ∈ c.2, 0 ≤ w.2)
    (hcap : ∀ t k, busy (placements works) k t ≤ (pool contractors k).getD 0) :
    validate inp contractors works = true := by
  have hby : ∀ v ∈ inp.nodes, ∃ w ∈ works, w.id = v ∧ byId works v = some w := by
    intro v hv
    obtain ⟨w, hw, rfl⟩ := hall v hv
    exact ⟨w, hw, rfl, byId_unique hids hw⟩
  have hch : ∀ w ∈ works, charged w.workers = w.workers := by
    intro w hw
    obtain ⟨c, hc⟩ := hone w hw
    exact charged_of_one hc
  have heq : asPlacements works = placements works := by
    unfold asPlacements placements
    apply List.map_congr_left
    intro w hw
    rw [hch w hw]
  unfold validate executionTime
  obtain ⟨l, hl⟩ : ∃ l, works.getLast? = some l := ⟨works.getLast hne, List.getLast?_eq_some_getLast hne⟩
  rw [hl]
  simp only [Option.map_some]
  by_cases hinf : max l.start l.finish = timeInf
  · rw [if_pos hinf]
  · rw [if_neg hinf]
    simp only [Bool.and_eq_true]
    refine ⟨⟨⟨⟨⟨?_, ?_⟩, ?_⟩, ?_⟩, ?_⟩, ?_⟩
    · unfold allScheduled
      rw [List.all_eq_true]
      intro v hv
      obtain ⟨w, _, _, h⟩ := hby v hv
      rw [h]; rfl
    · unfold parentsDone
      rw [List.all_eq_true]
      intro v hv
      obtain ⟨w, hw, rfl, h⟩ := hby v hv
      rw [h]
      simp only
      rw [List.all_eq_true]
      intro p hp
      obtain ⟨q, hq, rfl, hqw⟩ := hpar w hw p hp
      rw [byId_unique hids hq]
      simp only [decide_eq_true_eq]
      exact ⟨hle q hq, hqw, hle w hw⟩
    · unfold contractorsEnabled
      rw [List.all_eq_true]
      intro v hv
      obtain ⟨w, hw, rfl, h⟩ := hby v hv
      rw [h]
      rcases hspec w hw with h' | h'
      · simp [h']
      · simp [h']
    · unfold serviceInstant
      rw [List.all_eq_true]
      intro w hw
      cases hs : w.service with
      | false => simp
      | true =>
        rw [hserv w hw hs]
        simp only [Bool.not_true, Bool.false_or, decide_eq_true_eq]
        unfold tSub mkTime
        rw [Int.sub_self]
        decide
    · unfold teamsFit
      rw [List.all_eq_true]
      intro w hw
      rw [Bool.and_eq_true]
      refine ⟨by simpa using hnodes w hw, ?_⟩
      rw [List.all_eq_true]
      intro x hx
      obtain ⟨r, hr, h1, h2⟩ := hreq w hw x hx
      cases hf : (inp.reqs w.id).reverse.find? fun r => decide (r.kind = x.name) with
      | none =>
        rw [List.find?_eq_none] at hf
        exact absurd (hf r (by simpa using hr)) (by simpa using h1)
      | some r' =>
        have e1 : r' ∈ inp.reqs w.id := by simpa using List.mem_of_find?_eq_some hf
        have e2 : r'.kind = x.name := by simpa using List.find?_some hf
        have : r' = r := List.inj_on_of_nodup_map (hkinds w.id) e1 hr (e2.trans h1.symm)
        rw [this]
        simpa using h2
    · apply withinCapacity_complete hle hcount
      · intro w hw x hx
        rw [hch w hw] at hx
        exact hown w hw x hx
      · intro k i hk
        unfold pool at hk
        split at hk
        · simp at hk
        · rename_i c hc
          simp only at hk
          split at hk
          · simp at hk
          · rw [Option.some.injEq] at hk
            rw [← hk]
            apply List.sum_nonneg
            intro x hx
            obtain ⟨y, hy, rfl⟩ := List.mem_map.1 hx
            exact hpool c (by simpa using List.mem_of_find?_eq_some hc) y (List.mem_filter.1 hy).1
      · rw [heq]; exact hcap

/-- Nothing is checked if the last row of the schedule ends at infinity: such a schedule is accepted whatever it contains. -/
theorem infinite_schedule_not_checked (w : SWork) (hw : max w.start w.finish = TIME_INF) :
    validate inp contractors (works ++ [w]) = true := by
  unfold validate executionTime
  simp only [List.getLast?_append, List.getLast?_singleton, Option.map_some, Option.some_or]
  rw [hw, if_pos (by decide)]

/-! ### Concrete cases

Works 0 (start), 1, 2, 3 (finish); 1 and 2 need between 1 and 3 workers of kind 7; contractor 4 has three of them. -/

def demoInput : Input where
  nodes := [0, 1, 2, 3]
  parents := fun v => if v = 1 then [0] else if v = 2 then [0] else if v = 3 then [1, 2] else []
  reqs := fun v => if v = 1 ∨ v = 2 then [⟨7, 1, 3⟩] else []
  enabled := fun v => if v = 1 then [4] else []

def demoWorks (startOf2 : Int) : List SWork :=
  [⟨0, 0, 0, [], 4, true⟩, ⟨1, 0, 5, [⟨4, 7, 2⟩], 4, false⟩, ⟨2, startOf2, startOf2 + 4, [⟨4, 7, 2⟩], 4, false⟩,
    ⟨3, startOf2 + 4, startOf2 + 4, [], 4, true⟩]

/-- Accepted, and all hypotheses hold. -/
example : validate demoInput [(4, [(7, 3)])] (demoWorks 5) = true ∧
    (∀ w ∈ demoWorks 5, max w.start w.finish < TIME_INF) ∧ ((demoWorks 5).map (·.id)).Nodup ∧
    (∀ v ∈ demoInput.nodes, demoInput.parents v ≠ [] ∨ ∃ u ∈ demoInput.nodes, v ∈ demoInput.parents u) := by decide

/-- The hypotheses of `executable_is_accepted` hold for the same schedule. -/
example : demoWorks 5 ≠ [] ∧ (∀ v ∈ demoInput.nodes, ∃ w ∈ demoWorks 5, w.id = v) ∧
    (∀ w ∈ demoWorks 5, w.id ∈ demoInput.nodes) ∧ (∀ w ∈ demoWorks 5, w.start ≤ w.finish) ∧
    (∀ w ∈ demoWorks 5, ∀ p ∈ demoInput.parents w.id, ∃ q ∈ demoWorks 5, q.id = p ∧ q.finish ≤ w.start) ∧
    (∀ w ∈ demoWorks 5, demoInput.enabled w.id = [] ∨ w.contractor ∈ demoInput.enabled w.id) ∧
    (∀ w ∈ demoWorks 5, w.service = true → w.start = w.finish) ∧
    (∀ w ∈ demoWorks 5, ∀ x ∈ w.workers, ∃ r ∈ demoInput.reqs w.id, r.kind = x.name ∧ r.min ≤ x.count ∧ x.count ≤ r.max) ∧
    (∀ w ∈ demoWorks 5, ∀ x ∈ w.workers, x.contractor = 4 ∧ 0 ≤ x.count ∧ pool [(4, [(7, 3)])] x.agent = some 3) := by decide

example : ∀ v, ((demoInput.reqs v).map (·.kind)).Nodup := by
  intro v
  simp only [demoInput]
  split <;> decide

example : ∀ t k, busy (placements (demoWorks 5)) k t ≤ (pool [(4, [(7, 3)])] k).getD 0 :=
  (accepted_is_executable_partial (inp := demoInput) (by decide) (by decide) (by decide)).2.2.2.2.2.2 (by
    intro w hw
    exact ⟨4, by
      have : ∀ w ∈ demoWorks 5, ∀ x ∈ w.workers, x.contractor = 4 := by decide
      exact this w hw⟩) (by decide) (by decide)

/-- Works 1 and 2 overlap: four workers of three. -/
example : validate demoInput [(4, [(7, 3)])] (demoWorks 4) = false := by decide

/-- Not proved because false: "team sizes are within the requirements" for kinds that are missing in the team.  Here work 1
needs a worker of kind 7 and has an empty team. -/
theorem missing_kind_accepted :
    validate demoInput [(4, [(7, 3)])] [⟨0, 0, 0, [], 4, true⟩, ⟨1, 0, 5, [], 4, false⟩, ⟨2, 0, 4, [⟨4, 7, 2⟩], 4, false⟩,
      ⟨3, 5, 5, [], 4, true⟩] = true := by decide

/-- Not proved because false: "no contractor's capacity is exceeded" for teams of several contractors.  Here contractor 8 has
one worker of kind 7 and lends three of them: all are charged to contractor 4, who has enough. -/
theorem mixed_team_accepted :
    let works : List SWork := [⟨0, 0, 0, [], 4, true⟩, ⟨1, 0, 5, [⟨4, 7, 1⟩, ⟨8, 7, 3⟩], 4, false⟩,
      ⟨2, 5, 9, [⟨4, 7, 2⟩], 4, false⟩, ⟨3, 9, 9, [], 4, true⟩]
    validate demoInput [(4, [(7, 5)]), (8, [(7, 1)])] works = true ∧ busy (placements works) (8, 7) 2 = 3 := by decide

end Sampo.C17
