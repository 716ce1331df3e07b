import Verif.Spec.Sched
import Verif.Lemmas.JITHistory
import Verif.Prelude

namespace Sampo

/-! ### Schedules as association lists -/

theorem get_cons (v : Nat) (x : SWork) (sw : Sched) (u : Nat) :
    Sched.get ((v, x) :: sw) u = if v = u then some x else Sched.get sw u := by
  unfold Sched.get
  by_cases h : v = u <;> simp [h]

theorem get_nil (u : Nat) : Sched.get [] u = none := rfl

theorem get_isSome_iff (sw : Sched) (u : Nat) : (∃ x, Sched.get sw u = some x) ↔ u ∈ sw.works := by
  induction sw with
  | nil => simp [get_nil, Sched.works]
  | cons e sw ih =>
    obtain ⟨v, x⟩ := e
    rw [show Sched.works ((v, x) :: sw) = v :: Sched.works sw from rfl, List.mem_cons, ← ih]
    simp only [get_cons]
    by_cases h : v = u
    · simp [h]
    · simp only [h, if_false]
      constructor
      · exact fun h => .inr h
      · rintro (h' | h')
        · exact absurd h'.symm h
        · exact h'

theorem foldl_max_ge (l : List Int) (a : Int) : a ≤ l.foldl max a ∧ ∀ x ∈ l, x ≤ l.foldl max a := by
  induction l generalizing a with
  | nil => simp
  | cons b l ih =>
    obtain ⟨h1, h2⟩ := ih (max a b)
    simp only [List.foldl_cons]
    refine ⟨by omega, fun x hx => ?_⟩
    rcases List.mem_cons.mp hx with rfl | hx
    · omega
    · exact h2 x hx

theorem le_maxDefault {l : List Int} {x : Int} (h : x ∈ l) : x ≤ maxDefault l := by
  cases l with
  | nil => simp at h
  | cons a l =>
    rcases List.mem_cons.mp h with rfl | h
    · exact (foldl_max_ge l _).1
    · exact (foldl_max_ge l _).2 x h

theorem le_minStart {edges : List (Nat × Int)} {sw : Sched} {e : Nat × Int} (he : e ∈ edges) {y : SWork}
    (hy : Sched.get sw e.1 = some y) : y.finish + e.2 ≤ minStart edges sw := by
  unfold minStart
  apply le_maxDefault
  exact List.mem_filterMap.mpr ⟨e, he, by simp [hy]⟩

/-! ### Topological lists -/

/-- Recursive form of `TopoList`: predecessors are among the works seen before. -/
def TopoFrom (preds : Nat → List Nat) : List Nat → List Nat → Prop
  | _, [] => True
  | seen, v :: vs => (∀ p ∈ preds v, p ∈ seen) ∧ TopoFrom preds (seen ++ [v]) vs

instance (preds : Nat → List Nat) : ∀ seen l, Decidable (TopoFrom preds seen l)
  | _, [] => .isTrue trivial
  | seen, v :: vs =>
    have := instDecidableTopoFrom preds (seen ++ [v]) vs
    by unfold TopoFrom; infer_instance

theorem topoFrom_iff {preds : Nat → List Nat} {seen l : List Nat} :
    TopoFrom preds seen l ↔ ∀ l₁ v l₂, l = l₁ ++ v :: l₂ → ∀ p ∈ preds v, p ∈ seen ++ l₁ := by
  induction l generalizing seen with
  | nil => simp [TopoFrom]
  | cons w l ih =>
    simp only [TopoFrom, ih]
    constructor
    · rintro ⟨h1, h2⟩ l₁ v l₂ h p hp
      cases l₁ with
      | nil => simp at h; rw [List.append_nil]; exact h1 p (h.1 ▸ hp)
      | cons x l₁ =>
        simp at h
        have := h2 l₁ v l₂ h.2 p hp
        rw [h.1] at this
        simpa using this
    · intro h
      refine ⟨fun p hp => by simpa using h [] w l rfl p hp, fun l₁ v l₂ hl p hp => ?_⟩
      have := h (w :: l₁) v l₂ (by simp [hl]) p hp
      simpa using this

theorem topoList_of_from {preds : Nat → List Nat} {l : List Nat} (h : TopoFrom preds [] l) : TopoList preds l := by
  intro l₁ v l₂ hl p hp
  simpa using topoFrom_iff.mp h l₁ v l₂ hl p hp

/-! ### Rows: placing the works of a chain one after another -/

/-- The works of a list are appended to a schedule, one after another, from time `cur` to time `cur'`. -/
inductive Row (R : Nat → Sched → Int → Prop) (team : List Worker) (c : Nat) :
    List Nat → Int → Sched → Int → Sched → Prop
  | nil {cur sw} : Row R team c [] cur sw cur sw
  | cons {v vs cur sw st d cur' sw'} : R v sw st → cur ≤ st → 0 ≤ d →
      Row R team c vs (st + d) ((v, ⟨st, st + d, team, c⟩) :: sw) cur' sw' → Row R team c (v :: vs) cur sw cur' sw'

theorem Row.le {R team c vs cur sw cur' sw'} (h : Row R team c vs cur sw cur' sw') : cur ≤ cur' := by
  induction h with
  | nil => omega
  | cons => omega

theorem Row.works {R team c vs cur sw cur' sw'} (h : Row R team c vs cur sw cur' sw') :
    sw'.works = vs.reverse ++ sw.works := by
  induction h with
  | nil => simp
  | cons _ _ _ _ ih => rw [ih]; simp [Sched.works]

theorem Row.get_of_not_mem {R team c vs cur sw cur' sw'} (h : Row R team c vs cur sw cur' sw') {u : Nat}
    (hu : u ∉ vs) : sw'.get u = sw.get u := by
  induction h with
  | nil => rfl
  | cons _ _ _ _ ih =>
    rw [ih (fun h => hu (List.mem_cons_of_mem _ h)), get_cons, if_neg]
    rintro rfl; exact hu (List.mem_cons_self ..)

/-- What is known of a work of the row. -/
theorem Row.mem {R team c vs cur sw cur' sw'} (h : Row R team c vs cur sw cur' sw') (hnd : vs.Nodup) {v : Nat}
    (hv : v ∈ vs) : ∃ x, sw'.get v = some x ∧ cur ≤ x.start ∧ x.start ≤ x.finish ∧ x.finish ≤ cur' ∧
      x.team = team ∧ x.contractor = c := by
  induction h with
  | nil => simp at hv
  | @cons w vs cur sw st d cur' sw' hR hst hd hrow ih =>
    rw [List.nodup_cons] at hnd
    rcases List.mem_cons.mp hv with rfl | hv
    · refine ⟨_, by rw [hrow.get_of_not_mem hnd.1, get_cons, if_pos rfl], ?_⟩
      have := hrow.le
      exact ⟨by omega, by simp; omega, by simp; omega, rfl, rfl⟩
    · obtain ⟨x, h1, h2, h3⟩ := ih hnd.2 hv
      exact ⟨x, h1, by omega, h3⟩

/-- The relation of a row, for a relation that does not look at the schedule. -/
theorem Row.rel {R : Nat → Int → Prop} {team c vs cur sw cur' sw'}
    (h : Row (fun v _ st => R v st) team c vs cur sw cur' sw') (hnd : vs.Nodup) {v : Nat} (hv : v ∈ vs) :
    ∃ x, sw'.get v = some x ∧ R v x.start := by
  induction h with
  | nil => simp at hv
  | @cons w vs cur sw st d cur' sw' hR hst hd hrow ih =>
    rw [List.nodup_cons] at hnd
    rcases List.mem_cons.mp hv with rfl | hv
    · exact ⟨_, by rw [hrow.get_of_not_mem hnd.1, get_cons, if_pos rfl], hR⟩
    · exact ih hnd.2 hv

theorem Row.oneAfterAnother {R team c vs cur sw cur' sw'} (h : Row R team c vs cur sw cur' sw') (hnd : vs.Nodup) :
    OneAfterAnother sw' vs := by
  induction h with
  | nil => exact List.Pairwise.nil
  | @cons w vs cur sw st d cur' sw' hR hst hd hrow ih =>
    rw [List.nodup_cons] at hnd
    refine List.pairwise_cons.mpr ⟨fun u hu => ?_, ih hnd.2⟩
    obtain ⟨y, h1, h2, h3, h4, h5, h6⟩ := hrow.mem hnd.2 hu
    exact ⟨_, y, by rw [hrow.get_of_not_mem hnd.1, get_cons, if_pos rfl], h1, h2, h5.symm, h6.symm⟩

theorem teamCount_nonneg {team : List Worker} (hwf : ∀ w ∈ team, 0 ≤ w.count) (a : AgentId) :
    0 ≤ teamCount team a := by
  induction team with
  | nil => simp [teamCount]
  | cons w team ih =>
    have := ih fun w hw => hwf w (List.mem_cons_of_mem _ hw)
    have h2 := hwf w (List.mem_cons_self ..)
    unfold teamCount at *
    by_cases h : w.agent = a
    · simp only [List.filter_cons, h, decide_true, if_true, List.map_cons, List.sum_cons]; omega
    · simp only [List.filter_cons, h, decide_false, Bool.false_eq_true, if_false]; exact this

/-- Usage of workers by a row is bounded by the usage of its team in `[cur, cur')`. -/
theorem Row.busy_le {R team c vs cur sw cur' sw'} (h : Row R team c vs cur sw cur' sw')
    (hwf : ∀ w ∈ team, 0 ≤ w.count) (a : AgentId) (t : Int) :
    busy sw'.placements a t ≤ busy sw.placements a t + if cur ≤ t ∧ t < cur' then teamCount team a else 0 := by
  have htc : 0 ≤ teamCount team a := by
    exact teamCount_nonneg hwf a
  induction h with
  | nil => split <;> omega
  | @cons w vs cur sw st d cur' sw' hR hst hd hrow ih =>
    have hle := hrow.le
    have hb : busy (Sched.placements ((w, ⟨st, st + d, team, c⟩) :: sw)) a t =
        busy sw.placements a t + if st ≤ t ∧ t < st + d then teamCount team a else 0 := by
      rw [show Sched.placements ((w, ⟨st, st + d, team, c⟩) :: sw) = ⟨team, st, st + d, false⟩ :: sw.placements from rfl,
        JIT.busy_cons]
      simp only
      omega
    rw [hb] at ih
    refine Int.le_trans ih ?_
    by_cases h1 : st ≤ t <;> by_cases h2 : t < st + d <;> by_cases h3 : t < cur' <;> by_cases h4 : cur ≤ t <;>
      simp [h1, h2, h3, h4] <;> (try split) <;> omega

/-! ### Runs: rows for a list of chains -/

/-- Rows for the chains of the works of a list, each starting anywhere. -/
inductive Run (R : Nat → Sched → Int → Prop) (chain : Nat → List Nat) : List Nat → Sched → Sched → Prop
  | nil {sw} : Run R chain [] sw sw
  | cons {v vs sw sw1 sw2 cur cur' team c} : Row R team c (chain v) cur sw cur' sw1 → Run R chain vs sw1 sw2 →
      Run R chain (v :: vs) sw sw2

theorem Run.works {R chain vs sw sw'} (h : Run R chain vs sw sw') :
    sw'.works = (vs.flatMap chain).reverse ++ sw.works := by
  induction h with
  | nil => simp
  | cons hrow _ ih => rw [ih, hrow.works]; simp

theorem Run.get_of_not_mem {R chain vs sw sw'} (h : Run R chain vs sw sw') {u : Nat} (hu : u ∉ vs.flatMap chain) :
    sw'.get u = sw.get u := by
  induction h with
  | nil => rfl
  | cons hrow _ ih =>
    simp only [List.flatMap_cons, List.mem_append, not_or] at hu
    rw [ih hu.2, hrow.get_of_not_mem hu.1]

theorem Run.oneAfterAnother {R chain vs sw sw'} (h : Run R chain vs sw sw') (hnd : (vs.flatMap chain).Nodup) :
    ∀ v ∈ vs, OneAfterAnother sw' (chain v) := by
  induction h with
  | nil => simp
  | @cons v vs sw sw1 sw2 cur cur' team c hrow hrun ih =>
    simp only [List.flatMap_cons, List.nodup_append] at hnd
    intro u hu
    rcases List.mem_cons.mp hu with rfl | hu
    · have := hrow.oneAfterAnother hnd.1
      refine this.imp_of_mem ?_
      rintro x y hx hy ⟨p, q, h1, h2, h3⟩
      refine ⟨p, q, ?_, ?_, h3⟩
      · rw [hrun.get_of_not_mem (fun h => hnd.2.2 x hx x h rfl), h1]
      · rw [hrun.get_of_not_mem (fun h => hnd.2.2 y hy y h rfl), h2]
    · exact ih hnd.2.1 u hu

/-- The relation that gives precedence: start not before finish + lag of every predecessor in the schedule. -/
def AfterPreds (edges : Nat → List (Nat × Int)) (v : Nat) (sw : Sched) (st : Int) : Prop :=
  ∀ e ∈ edges v, ∀ y, sw.get e.1 = some y → y.finish + e.2 ≤ st

theorem Row.precedence {edges R team c vs cur sw cur' sw'}
    (h : Row R team c vs cur sw cur' sw') (hR : ∀ v sw st, R v sw st → AfterPreds edges v sw st)
    (hp : RespectsPrecedence edges sw)
    (htopo : TopoList (fun v => (edges v).map (·.1)) (sw.works.reverse ++ vs)) (hnd : (sw.works.reverse ++ vs).Nodup) :
    RespectsPrecedence edges sw' := by
  induction h with
  | nil => exact hp
  | @cons w vs cur sw st d cur' sw' hRw hst hd hrow ih =>
    apply ih
    · have hw : w ∉ sw.works := by
        intro hm
        rw [List.nodup_append] at hnd
        exact hnd.2.2 w (by simpa using hm) w (by simp) rfl
      intro v x hx e he
      rw [get_cons] at hx
      by_cases hv : w = v
      · subst hv
        rw [if_pos rfl] at hx; cases hx
        have hpred : e.1 ∈ sw.works.reverse := htopo sw.works.reverse w vs rfl e.1 (List.mem_map.mpr ⟨e, he, rfl⟩)
        obtain ⟨y, hy⟩ := (get_isSome_iff sw e.1).mpr (by simpa using hpred)
        refine ⟨y, ?_, hR _ _ _ hRw e he y hy⟩
        rw [get_cons, if_neg, hy]
        rintro rfl; exact hw (by simpa using hpred)
      · rw [if_neg hv] at hx
        obtain ⟨y, hy, hle⟩ := hp v x hx e he
        refine ⟨y, ?_, hle⟩
        rw [get_cons, if_neg, hy]
        rintro rfl; exact hw ((get_isSome_iff sw _).mp ⟨y, hy⟩)
    · simpa [Sched.works] using htopo
    · simpa [Sched.works] using hnd

theorem Run.precedence {edges chain R vs sw sw'} (h : Run R chain vs sw sw')
    (hR : ∀ v sw st, R v sw st → AfterPreds edges v sw st)
    (hp : RespectsPrecedence edges sw)
    (htopo : TopoList (fun v => (edges v).map (·.1)) (sw.works.reverse ++ vs.flatMap chain))
    (hnd : (sw.works.reverse ++ vs.flatMap chain).Nodup) : RespectsPrecedence edges sw' := by
  induction h with
  | nil => exact hp
  | @cons v vs sw sw1 sw2 cur cur' team c hrow hrun ih =>
    have hpre : ∀ l₁ l₂ : List Nat, TopoList (fun v => (edges v).map (·.1)) (l₁ ++ l₂) →
        TopoList (fun v => (edges v).map (·.1)) l₁ := by
      intro l₁ l₂ h m₁ u m₂ hm p hp
      exact h m₁ u (m₂ ++ l₂) (by rw [hm]; simp) p hp
    rw [List.flatMap_cons, ← List.append_assoc] at htopo hnd
    apply ih
    · apply hrow.precedence hR hp (hpre _ _ htopo)
      rw [List.nodup_append] at hnd; exact hnd.1
    · rw [hrow.works]; simpa using htopo
    · rw [hrow.works]; simpa using hnd

theorem Row.times_ordered {R team c vs cur sw cur' sw'} (h : Row R team c vs cur sw cur' sw')
    (hs : ∀ e ∈ sw, e.2.start ≤ e.2.finish) : ∀ e ∈ sw', e.2.start ≤ e.2.finish := by
  induction h with
  | nil => exact hs
  | cons _ _ hd _ ih =>
    apply ih
    intro e he
    rcases List.mem_cons.mp he with rfl | he
    · simp; omega
    · exact hs e he

theorem Run.times_ordered {R chain vs sw sw'} (h : Run R chain vs sw sw')
    (hs : ∀ e ∈ sw, e.2.start ≤ e.2.finish) : ∀ e ∈ sw', e.2.start ≤ e.2.finish := by
  induction h with
  | nil => exact hs
  | cons hrow _ ih => exact ih (hrow.times_ordered hs)

theorem Row.all_starts {R team c vs cur sw cur' sw'} {b : Int} (h : Row R team c vs cur sw cur' sw')
    (hR : b ≤ cur ∨ ∀ v sw st, R v sw st → b ≤ st)
    (hs : ∀ e ∈ sw, b ≤ e.2.start) : ∀ e ∈ sw', b ≤ e.2.start := by
  induction h with
  | nil => exact hs
  | cons hRw hst hd _ ih =>
    apply ih
    · rcases hR with hR | hR
      · left; omega
      · right; exact hR
    · intro e he
      rcases List.mem_cons.mp he with rfl | he
      · rcases hR with hR | hR
        · simp; omega
        · exact hR _ _ _ hRw
      · exact hs e he

theorem Run.all_starts {R chain vs sw sw'} {b : Int} (h : Run R chain vs sw sw')
    (hR : ∀ v sw st, R v sw st → b ≤ st) (hs : ∀ e ∈ sw, b ≤ e.2.start) : ∀ e ∈ sw', b ≤ e.2.start := by
  induction h with
  | nil => exact hs
  | cons hrow _ ih => exact ih (hrow.all_starts (.inr hR) hs)

theorem Row.subset {R team c vs cur sw cur' sw'} (h : Row R team c vs cur sw cur' sw') : ∀ e ∈ sw, e ∈ sw' := by
  induction h with
  | nil => exact fun _ h => h
  | cons _ _ _ _ ih => exact fun e he => ih e (List.mem_cons_of_mem _ he)

theorem Run.subset {R chain vs sw sw'} (h : Run R chain vs sw sw') : ∀ e ∈ sw, e ∈ sw' := by
  induction h with
  | nil => exact fun _ h => h
  | cons hrow _ ih => exact fun e he => ih e (hrow.subset e he)

theorem mem_of_get {sw : Sched} {v : Nat} {x : SWork} (h : sw.get v = some x) : (v, x) ∈ sw := by
  induction sw with
  | nil => simp [get_nil] at h
  | cons e sw ih =>
    obtain ⟨u, y⟩ := e
    rw [get_cons] at h
    split at h
    · cases h; rename_i h; subst h; exact List.mem_cons_self ..
    · exact List.mem_cons_of_mem _ (ih h)

theorem foldl_max_le {l : List Int} {a b : Int} (ha : a ≤ b) (h : ∀ x ∈ l, x ≤ b) : l.foldl max a ≤ b := by
  induction l generalizing a with
  | nil => exact ha
  | cons x l ih =>
    have := h x (List.mem_cons_self ..)
    exact ih (by omega) fun y hy => h y (List.mem_cons_of_mem _ hy)

theorem minStart_le {edges : List (Nat × Int)} {sw : Sched} {b : Int} (h0 : 0 ≤ b)
    (h : ∀ e ∈ edges, ∀ y, sw.get e.1 = some y → y.finish + e.2 ≤ b) : minStart edges sw ≤ b := by
  unfold minStart
  have hl : ∀ x ∈ edges.filterMap (fun e => (Sched.get sw e.1).map fun x => x.finish + e.2), x ≤ b := by
    intro x hx
    obtain ⟨e, he, hx⟩ := List.mem_filterMap.mp hx
    obtain ⟨y, hy, rfl⟩ := Option.map_eq_some_iff.mp hx
    exact h e he y hy
  cases hm : edges.filterMap (fun e => (Sched.get sw e.1).map fun x => x.finish + e.2) with
  | nil => exact h0
  | cons a l =>
    rw [hm] at hl
    exact foldl_max_le (hl a (List.mem_cons_self ..)) fun x hx => hl x (List.mem_cons_of_mem _ hx)

theorem minStart_nil (edges : List (Nat × Int)) : minStart edges [] = 0 := by
  unfold minStart
  rw [show edges.filterMap (fun e => (Sched.get [] e.1).map fun x => x.finish + e.2) = [] by
    induction edges with
    | nil => rfl
    | cons e es ih => simp [get_nil]]
  rfl

end Sampo
