import Verif.Lemmas.MomentumTeam

/-! # C50: independent works on a momentum timeline

Full statement: an independent work never overlaps in time with another work that uses the same worker types of the same
contractor, whatever was placed before or is placed after it.  It is false for works placed later
(`later_work_overlaps_independent`); for works placed before it holds (`independent_after_earlier_partial`). -/

namespace Sampo.C50
open Sampo.Momentum

/-- The start found for an independent work is not before the finish of any work placed before that uses one of its
worker types. -/
theorem independent_after_earlier_partial (pool : AgentId → Option Int) (tl : Timeline) (ps : List Placement)
    (h : History pool tl ps) (c : Nat) (team : List Worker) (hone : OneContractor c team) (hwf : WellFormedTeam team)
    (hwp : WithinPool pool team) (chain : List ChainWork) (hm : Matches chain team)
    (hserv : chain.all (·.service) = false) (parent exec inf : Int) (hp : 0 ≤ parent) (hexec : 0 < exec) :
    ∃ fuel0 r, (∀ fuel, fuel0 ≤ fuel →
        findMinStart (tl.resources c) chain true parent exec team inf fuel = some (some r)) ∧
      parent ≤ r ∧
      ∀ w ∈ team, ∀ p ∈ ps, (∃ v ∈ p.team, v.agent = w.agent ∧ 0 < v.count) → p.start < p.finish → p.finish ≤ r := by
  have hag : ∀ w ∈ team, w.agent = (c, w.name) := by
    intro w hw; unfold Worker.agent; rw [hone w hw]
  have hnames := nodup_names hone hwf.1
  have hst : ∀ w ∈ team, ∃ cap s, pool w.agent = some cap ∧ w.count ≤ cap ∧ tl.resources c w.name = some s ∧
      AgentInv ps w.agent cap tl.taskIndex s := by
    intro w hw
    obtain ⟨cap, h1, h2⟩ := hwp w hw
    obtain ⟨s, h3, h4⟩ := history_inv h h1
    refine ⟨cap, s, h1, h2, ?_, h4⟩
    unfold Timeline.resources; rw [← hag w hw]; exact h3
  have henough : enoughForChain (tl.resources c) team chain = some true := by
    apply enoughForChain_true
    intro d hd
    rcases hm.2 d hd with hk | hk
    · apply enoughFor_true hk
      intro w hw
      obtain ⟨cap, s, h1, h2, h3, h4⟩ := hst w hw
      obtain ⟨es, hes, _⟩ := h4.head
      exact ⟨cap, es, by rw [h3, hes], h2⟩
    · rw [hk]; rfl
  obtain ⟨⟨d, ds, rfl, hdk⟩, _⟩ := hm
  obtain ⟨fuel0, r, hr, h1, h2⟩ := queueLoop_independent (rt := tl.resources c) (cnt := typeToCount team) d.kinds hexec hp
    (by
      intro k hk
      rw [hdk] at hk
      obtain ⟨w, hw, rfl⟩ := List.mem_map.mp hk
      obtain ⟨cap, s, h1, h2, h3, h4⟩ := hst w hw
      exact ⟨s, w.count, cap, _, h3, typeToCount_mem hnames hw, h4.toInv⟩)
  refine ⟨fuel0, r, ?_, h1, ?_⟩
  · intro fuel hf
    unfold findMinStart
    rw [hserv, henough]
    simp only [Bool.false_eq_true, if_false]
    exact hr fuel hf
  · intro w hw p hpm hv hsf
    obtain ⟨v, hv, hva, hvc⟩ := hv
    obtain ⟨cap, s, f1, f2, f3, f4⟩ := hst w hw
    have hkm : w.name ∈ d.kinds := by rw [hdk]; exact List.mem_map_of_mem hw
    have hkeys := h2 w.name hkm s f3
    by_contra hcon
    -- at some moment after `r` the placement runs, but nothing is busy there
    have hbz : busy ps w.agent (max r p.start) = 0 := by
      have h3 := f4.full (max r p.start) (fun e he => by have := hkeys e he; omega)
      rw [f4.exact_ _ (by omega)] at h3
      simp at h3; omega
    have hpos : ∀ (ps : List Placement) (tl : Timeline), History pool tl ps → p ∈ ps →
        0 < busy ps w.agent (max r p.start) := by
      have hnn : ∀ q : Placement, WellFormedTeam q.team → 0 ≤ teamCount q.team w.agent := by
        intro q hq
        unfold teamCount
        have : ∀ l : List Int, (∀ x ∈ l, 0 ≤ x) → 0 ≤ l.sum := by
          intro l; induction l with
          | nil => simp
          | cons x xs ihx => intro hx; simp at hx ⊢; have := ihx hx.2; omega
        apply this
        intro x hx
        obtain ⟨u, hu, rfl⟩ := List.mem_map.mp hx
        exact hq.2 u (List.mem_of_mem_filter hu)
      have hbnn : ∀ (ps : List Placement) (tl : Timeline), History pool tl ps → 0 ≤ busy ps w.agent (max r p.start) := by
        intro ps tl hh
        induction hh with
        | fresh => simp [busy]
        | place q _ hq _ _ _ ih =>
          rw [Sampo.JIT.busy_cons]; have := hnn q hq; split <;> omega
      intro ps tl hh
      induction hh with
      | fresh => simp
      | place q hh' hq _ _ _ ih =>
        intro hmem
        rw [Sampo.JIT.busy_cons]
        rcases List.mem_cons.mp hmem with rfl | hmem
        · have hb := hbnn _ _ hh'
          rw [← hva] at hb ⊢
          rw [Sampo.JIT.teamCount_mem hq.1 hv]
          have : p.start ≤ max r p.start ∧ max r p.start < p.finish := by omega
          rw [if_pos this]; omega
        · have := ih hmem
          have := hnn q hq
          split <;> omega
    have := hpos ps tl h hpm
    omega

/-- Counterexample to the full statement: an independent work occupies one of five workers during `[0, 10)`; a later
ordinary work with two workers of the same type is given the start 0 and is placed at `[0, 5)`. -/
theorem later_work_overlaps_independent :
    ∃ (pool : AgentId → Option Int) (tl tl' : Timeline) (p q : Placement),
      History pool tl [p] ∧ p.independent = true ∧ History pool tl' [q, p] ∧
      findMinStart (tl.resources 0) [⟨false, [0]⟩] false 0 5 q.team 1000 10 = some (some q.start) ∧
      p.team = [⟨0, 0, 1⟩] ∧ q.team = [⟨0, 0, 2⟩] ∧ q.start < p.finish ∧ p.start < q.finish := by
  refine ⟨fun a => if a = (0, 0) then some 5 else none, _, _, ⟨[⟨0, 0, 1⟩], 0, 10, true⟩, ⟨[⟨0, 0, 2⟩], 0, 5, false⟩,
    .place _ .fresh (by decide) (by decide) (by decide) rfl, rfl,
    .place _ (.place _ .fresh (by decide) (by decide) (by decide) rfl) (by decide) (by decide) (by decide) rfl,
    by rfl, rfl, rfl, by decide, by decide⟩

-- the hypotheses of the partial theorem are met, e.g. by
example : ∃ tl, History (fun a => if a = (0, 0) then some 5 else none) tl [⟨[⟨0, 0, 2⟩], 3, 8, false⟩] ∧
    findMinStart (tl.resources 0) [⟨false, [0]⟩] true 2 4 [⟨0, 0, 1⟩] 1000 20 = some (some 8) := by
  refine ⟨_, .place _ .fresh (by decide) (by decide) (by decide) rfl, by rfl⟩

end Sampo.C50
