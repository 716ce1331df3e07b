import Verif.Lemmas.MomentumQueue

/-! # The team search of the momentum timeline on a history -/

namespace Sampo.Momentum

/-- All workers of the team belong to one contractor (teams are always offers of one contractor). -/
def OneContractor (c : Nat) (team : List Worker) : Prop := ∀ w ∈ team, w.contractor = c

/-- The chain's requirements match the team: the first work needs exactly the team's types in the team's order, and so
do the other works unless they need no workers at all. -/
def Matches (chain : List ChainWork) (team : List Worker) : Prop :=
  (∃ c cs, chain = c :: cs ∧ c.kinds = team.map (·.name)) ∧
  ∀ c ∈ chain, c.kinds = team.map (·.name) ∨ c.kinds = []

theorem nodup_names {c : Nat} {team : List Worker} (h1 : OneContractor c team)
    (h : (team.map (·.agent)).Nodup) : (team.map (·.name)).Nodup := by
  induction team with
  | nil => simp
  | cons w ws ih =>
    simp only [List.map_cons, List.nodup_cons] at h ⊢
    refine ⟨?_, ih (fun v hv => h1 v (by simp [hv])) h.2⟩
    intro hm
    obtain ⟨v, hv, hvn⟩ := List.mem_map.mp hm
    apply h.1
    refine List.mem_map.mpr ⟨v, hv, ?_⟩
    unfold Worker.agent
    rw [h1 v (by simp [hv]), h1 w (by simp), hvn]

theorem typeToCount_mem {team : List Worker} (h : (team.map (·.name)).Nodup) {w : Worker} (hw : w ∈ team) :
    typeToCount team w.name = some w.count := by
  unfold typeToCount
  have hex : ∃ v, team.reverse.find? (fun v => decide (v.name = w.name)) = some v := by
    cases hf : team.reverse.find? (fun v => decide (v.name = w.name)) with
    | some v => exact ⟨v, rfl⟩
    | none =>
      have := List.find?_eq_none.mp hf w (by simpa using hw)
      simp at this
  obtain ⟨v, hv⟩ := hex
  have hvn : v.name = w.name := by simpa using List.find?_some hv
  have hvm : v ∈ team := by simpa using List.mem_of_find?_eq_some hv
  have : v = w := by
    exact List.inj_on_of_nodup_map h hvm hw hvn
  rw [hv, this]; rfl

theorem enoughFor_true {rt : Resources} : ∀ {kinds : List Nat} {team : List Worker}, kinds = team.map (·.name) →
    (∀ w ∈ team, ∃ cap es, rt w.name = some (⟨-1, .initial, 0, cap⟩ :: es) ∧ w.count ≤ cap) →
    enoughFor rt kinds team = some true := by
  intro kinds
  induction kinds with
  | nil => intro team _ _; rfl
  | cons k ks ih =>
    intro team hk h
    cases team with
    | nil => simp at hk
    | cons w ws =>
      simp only [List.map_cons, List.cons.injEq] at hk
      obtain ⟨cap, es, h1, h2⟩ := h w (by simp)
      have : ¬ cap < w.count := by omega
      simp [enoughFor, hk.1, h1, this, ih hk.2 (fun v hv => h v (by simp [hv]))]

theorem enoughFor_false {rt : Resources} : ∀ {kinds : List Nat} {team : List Worker}, kinds = team.map (·.name) →
    (∀ w ∈ team, ∃ cap es, rt w.name = some (⟨-1, .initial, 0, cap⟩ :: es)) →
    (∃ w ∈ team, ∃ cap es, rt w.name = some (⟨-1, .initial, 0, cap⟩ :: es) ∧ cap < w.count) →
    enoughFor rt kinds team = some false := by
  intro kinds
  induction kinds with
  | nil => intro team hk _ ⟨w, hw, _⟩; simp at hk; subst hk; simp at hw
  | cons k ks ih =>
    intro team hk hall h
    cases team with
    | nil => simp at hk
    | cons w ws =>
      simp only [List.map_cons, List.cons.injEq] at hk
      obtain ⟨cap, es, h1⟩ := hall w (by simp)
      by_cases hc : cap < w.count
      · simp [enoughFor, hk.1, h1, hc]
      · have hrest : ∃ w ∈ ws, ∃ cap es, rt w.name = some (⟨-1, .initial, 0, cap⟩ :: es) ∧ cap < w.count := by
          obtain ⟨v, hv, cap', es', h3, h4⟩ := h
          rcases List.mem_cons.mp hv with rfl | hv
          · rw [h1] at h3
            simp only [Option.some.injEq, List.cons.injEq, Event.mk.injEq, true_and] at h3
            omega
          · exact ⟨v, hv, cap', es', h3, h4⟩
        simp [enoughFor, hk.1, h1, hc, ih hk.2 (fun v hv => hall v (by simp [hv])) hrest]

theorem enoughForChain_true {rt : Resources} {team : List Worker} {chain : List ChainWork}
    (h : ∀ c ∈ chain, enoughFor rt c.kinds team = some true) : enoughForChain rt team chain = some true := by
  induction chain with
  | nil => rfl
  | cons c cs ih => simp [enoughForChain, h c (by simp), ih (fun d hd => h d (by simp [hd]))]

/-- The search for a team within the pool on a history. -/
theorem findMinStart_spec {pool : AgentId → Option Int} {tl : Timeline} {ps : List Placement} (h : History pool tl ps)
    {c : Nat} {team : List Worker} (hone : OneContractor c team) (hwf : WellFormedTeam team)
    (hwp : WithinPool pool team) {chain : List ChainWork} (hm : Matches chain team)
    (hserv : chain.all (·.service) = false) {parent exec inf : Int} (hp : 0 ≤ parent) (hexec : 0 ≤ exec) :
    ∃ fuel0 r, (∀ fuel, fuel0 ≤ fuel →
        findMinStart (tl.resources c) chain false parent exec team inf fuel = some (some r)) ∧ parent ≤ r ∧
      (∀ w ∈ team, ∃ cap, pool w.agent = some cap ∧ Free ps w.agent cap w.count r exec) ∧
      ∀ q, parent ≤ q → q < r → ∃ w ∈ team, ∃ cap, pool w.agent = some cap ∧ ¬ Free ps w.agent cap w.count q exec := by
  have hag : ∀ w ∈ team, w.agent = (c, w.name) := by
    intro w hw; unfold Worker.agent; rw [hone w hw]
  have hnames := nodup_names hone hwf.1
  have hst : ∀ w ∈ team, ∃ cap s, pool w.agent = some cap ∧ w.count ≤ cap ∧ tl.resources c w.name = some s ∧
      AgentInv ps w.agent cap tl.taskIndex s := by
    intro w hw
    obtain ⟨cap, h1, h2⟩ := hwp w hw
    obtain ⟨s, h3, h4⟩ := history_inv h h1
    refine ⟨cap, s, h1, h2, ?_, h4⟩
    unfold Timeline.resources; rw [← hag w hw]; exact h3
  have henough : enoughForChain (tl.resources c) team chain = some true := by
    apply enoughForChain_true
    intro d hd
    rcases hm.2 d hd with hk | hk
    · apply enoughFor_true hk
      intro w hw
      obtain ⟨cap, s, h1, h2, h3, h4⟩ := hst w hw
      obtain ⟨es, hes, _⟩ := h4.head
      exact ⟨cap, es, by rw [h3, hes], h2⟩
    · rw [hk]; rfl
  obtain ⟨⟨d, ds, rfl, hdk⟩, _⟩ := hm
  obtain ⟨fuel0, r, hr, h1, h2, h3⟩ := queueLoop_ordinary (rt := tl.resources c) (cnt := typeToCount team) d.kinds hexec hp
    (by
      intro k hk
      rw [hdk] at hk
      obtain ⟨w, hw, rfl⟩ := List.mem_map.mp hk
      obtain ⟨cap, s, h1, h2, h3, h4⟩ := hst w hw
      exact ⟨s, w.count, cap, _, h3, typeToCount_mem hnames hw, h4.toInv, h2⟩)
  refine ⟨fuel0, r, ?_, h1, ?_, ?_⟩
  · intro fuel hf
    unfold findMinStart
    rw [hserv, henough]
    simp only [Bool.false_eq_true, if_false]
    exact hr fuel hf
  · intro w hw
    obtain ⟨cap, s, e1, e2, e3, e4⟩ := hst w hw
    have hkm : w.name ∈ d.kinds := by rw [hdk]; exact List.mem_map_of_mem hw
    exact ⟨cap, e1, (freeIn_iff e4 (by omega)).mp (h2 w.name hkm s w.count e3 (typeToCount_mem hnames hw))⟩
  · intro q hq1 hq2
    obtain ⟨k, hk, s, n, e1, e2, e3⟩ := h3 q hq1 hq2
    rw [hdk] at hk
    obtain ⟨w, hw, rfl⟩ := List.mem_map.mp hk
    rw [typeToCount_mem hnames hw] at e2; cases e2
    obtain ⟨cap, s', f1, f2, f3, f4⟩ := hst w hw
    rw [e1] at f3; cases f3
    exact ⟨w, hw, cap, f1, fun hf => e3 ((freeIn_iff f4 (by omega)).mpr hf)⟩

end Sampo.Momentum
