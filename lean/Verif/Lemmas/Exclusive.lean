import Verif.Lemmas.SchedJIT
import Verif.Props.C05_JITIndependent

/-! Which placement of the timeline a work of the schedule belongs to. -/

namespace Sampo

/-- A work of a row starts and ends within the row and has its team, or was there before. -/
theorem Row.entry {R team c vs cur sw cur' sw'} (h : Row R team c vs cur sw cur' sw') : ∀ e ∈ sw', e ∈ sw ∨
    (e.1 ∈ vs ∧ cur ≤ e.2.start ∧ e.2.finish ≤ cur' ∧ e.2.team = team) := by
  induction h with
  | nil => exact fun e he => .inl he
  | @cons w vs cur sw st d cur' sw' hR hst hd hrow ih =>
    intro e he
    have hle := hrow.le
    rcases ih e he with h | ⟨h1, h2, h3, h4⟩
    · rcases List.mem_cons.1 h with rfl | h
      · exact .inr ⟨List.mem_cons_self .., hst, by simpa using hle, rfl⟩
      · exact .inl h
    · exact .inr ⟨List.mem_cons_of_mem _ h1, by omega, h3, h4⟩

namespace JIT

variable {σ : Type} {E : Env σ}

/-- The timeline is a history of placements, one for each head placed; the placement of a head has its independence flag; every
work of the schedule lies within the placement of a head whose chain it belongs to. -/
def Owned (E : Env σ) (pool : AgentId → Option Int) (ind : Nat → Bool) (heads : List Nat) (st : State σ) : Prop :=
  ∃ ps : List (Nat × Placement), ps.map (·.1) = heads ∧ History pool st.tl (ps.map (·.2)) ∧
    (∀ q ∈ ps, q.2.independent = ind q.1) ∧
    ∀ e ∈ st.sched, ∃ q ∈ ps, e.1 ∈ E.chain q.1 ∧ q.2.start ≤ e.2.start ∧ e.2.finish ≤ q.2.finish ∧ e.2.team = q.2.team

theorem step_owned {pool : AgentId → Option Int} {P : Plan (State σ)} {fuel : Nat} {first last : Bool}
    {st st' : State σ} {v : Nat} {heads : List Nat}
    (hest : ∀ v team, 0 ≤ E.estimate v team) (hts : ∀ v ts, P.assignedTimes v = some ts → NonNegTimes ts)
    (hteam : ∀ st v team c, P.choose st v = some (team, c) → WellFormedTeam team ∧ WithinPool pool team)
    (hP : 0 ≤ P.parentTime)
    (hst : (first = true ∧ st.tl = init pool ∧ st.sched = [] ∧ heads = []) ∨
      (first = false ∧ st.sched ≠ [] ∧ Owned E pool P.independent heads st))
    (h : step E P fuel first last st v = some (some st')) : Owned E pool P.independent (v :: heads) st' := by
  obtain ⟨team, c, start, fin, hch, hrow, hup, hf, hnf⟩ := step_spec hest hts h
  obtain ⟨hwf, hwp⟩ := hteam _ _ _ _ hch
  obtain ⟨ps, hp, hh, hi, hb, from_, t, hrep, hts⟩ : ∃ ps : List (Nat × Placement), ps.map (·.1) = heads ∧
      History pool st.tl (ps.map (·.2)) ∧ (∀ q ∈ ps, q.2.independent = P.independent q.1) ∧
      (∀ e ∈ st.sched, ∃ q ∈ ps, e.1 ∈ E.chain q.1 ∧ q.2.start ≤ e.2.start ∧ e.2.finish ≤ q.2.finish ∧ e.2.team = q.2.team) ∧
      ∃ from_ t, findMinStart st.tl (P.independent v) team from_ = some t ∧ t ≤ start := by
    rcases hst with ⟨h1, h2, h3, h4⟩ | ⟨h1, h2, ps, h3, h4, h5, h6⟩
    · refine ⟨[], by rw [h4]; rfl, h2 ▸ .fresh, by simp, by simp [h3], 0, 0, ?_, ?_⟩
      · rw [h2]; exact fresh_report _ hwp
      · have := hf h1; omega
    · exact ⟨ps, h3, h4, h5, h6, hnf h1 h2⟩
  refine ⟨(v, ⟨team, start, fin, P.independent v⟩) :: ps, by simp [hp],
    .place ⟨team, start, fin, P.independent v⟩ from_ t hh hwf hwp hrep hts hrow.le hup, ?_, ?_⟩
  · intro q hq
    rcases List.mem_cons.1 hq with rfl | hq
    · rfl
    · exact hi q hq
  · intro e he
    rcases hrow.entry e he with h | ⟨h1, h2, h3, h4⟩
    · obtain ⟨q, hq, hr⟩ := hb e h
      exact ⟨q, List.mem_cons_of_mem _ hq, hr⟩
    · exact ⟨_, List.mem_cons_self .., h1, h2, h3, h4⟩

theorem buildFrom_owned {pool : AgentId → Option Int} {P : Plan (State σ)} {fuel : Nat} {first : Bool}
    {order heads : List Nat} {st st' : State σ}
    (hest : ∀ v team, 0 ≤ E.estimate v team) (hts : ∀ v ts, P.assignedTimes v = some ts → NonNegTimes ts)
    (hchain : ∀ v, v ∈ E.chain v)
    (hteam : ∀ st v team c, P.choose st v = some (team, c) → WellFormedTeam team ∧ WithinPool pool team)
    (hP : 0 ≤ P.parentTime)
    (hst : (first = true ∧ st.tl = init pool ∧ st.sched = [] ∧ heads = []) ∨
      (first = false ∧ st.sched ≠ [] ∧ Owned E pool P.independent heads st))
    (h : buildFrom E P fuel first order st = some (some st')) :
    Owned E pool P.independent (order.reverse ++ heads) st' := by
  induction order generalizing first st heads with
  | nil =>
    simp only [buildFrom, Option.some.injEq] at h; subst h
    rcases hst with ⟨_, h1, h2, rfl⟩ | ⟨_, _, h1⟩
    · exact ⟨[], rfl, h1 ▸ .fresh, by simp, by simp [h2]⟩
    · exact h1
  | cons v vs ih =>
    simp only [buildFrom] at h
    split at h
    · simp at h
    · simp at h
    · rename_i st1 h1
      have := ih (heads := v :: heads) (.inr ⟨rfl, ?_, step_owned hest hts hteam hP hst h1⟩) h
      · simpa using this
      obtain ⟨team, c, start, fin, _, hrow, _⟩ := step_spec hest hts h1
      intro he
      have := hrow.works
      rw [he] at this
      have hv := hchain v
      have h2 : E.chain v = [] := by
        have := congrArg List.length this
        simp [Sched.works] at this
        exact List.length_eq_zero_iff.mp (by omega)
      rw [h2] at hv; simp at hv

/-- Works of different chains, one of them independent, do not overlap if they use the same workers. -/
theorem owned_exclusive {pool : AgentId → Option Int} {ind : Nat → Bool} {heads : List Nat} {st : State σ}
    (hnd : heads.Nodup) (ho : Owned E pool ind heads st) {e f : Nat × SWork} (he : e ∈ st.sched) (hf : f ∈ st.sched)
    (hdiff : ∀ k ∈ heads, e.1 ∈ E.chain k → f.1 ∉ E.chain k)
    (hind : (∀ k ∈ heads, e.1 ∈ E.chain k → ind k = true) ∨ ∀ k ∈ heads, f.1 ∈ E.chain k → ind k = true) {a : AgentId}
    (hu : ∃ w ∈ e.2.team, w.agent = a ∧ 0 < w.count) (hv : ∃ w ∈ f.2.team, w.agent = a ∧ 0 < w.count) :
    e.2.finish ≤ f.2.start ∨ f.2.finish ≤ e.2.start := by
  obtain ⟨ps, rfl, hh, hi, hb⟩ := ho
  obtain ⟨p, hp, p1, p2, p3, p4⟩ := hb e he
  obtain ⟨q, hq, q1, q2, q3, q4⟩ := hb f hf
  have hne : p ≠ q := by
    rintro rfl
    exact hdiff p.1 (List.mem_map_of_mem hp) p1 q1
  have hflag : p.2.independent = true ∨ q.2.independent = true := by
    rcases hind with h | h
    · exact .inl ((hi p hp).trans (h _ (List.mem_map_of_mem hp) p1))
    · exact .inr ((hi q hq).trans (h _ (List.mem_map_of_mem hq) q1))
  have hu' : C05.Uses p.2 a := by unfold C05.Uses; rw [← p4]; exact hu
  have hv' : C05.Uses q.2 a := by unfold C05.Uses; rw [← q4]; exact hv
  have hpair := List.pairwise_map.1 (C05.independent_works_exclusive pool st.tl _ hh)
  have hsym : ps.Pairwise fun x y => (x = p ∧ y = q → q.2.finish ≤ p.2.start) ∧ (x = q ∧ y = p → p.2.finish ≤ q.2.start) := by
    refine hpair.imp fun {x y} hxy => ⟨?_, ?_⟩
    · rintro ⟨rfl, rfl⟩; exact hxy hflag a hu' hv'
    · rintro ⟨rfl, rfl⟩; exact hxy hflag.symm a hv' hu'
  have key : q.2.finish ≤ p.2.start ∨ p.2.finish ≤ q.2.start := by
    clear hpair hh hi hb hdiff hind hnd
    induction ps with
    | nil => simp at hp
    | cons x ps ih =>
      obtain ⟨h1, h2⟩ := List.pairwise_cons.1 hsym
      rcases List.mem_cons.1 hp with rfl | hp'
      · rcases List.mem_cons.1 hq with rfl | hq'
        · exact absurd rfl hne
        · exact .inl ((h1 q hq').1 ⟨rfl, rfl⟩)
      · rcases List.mem_cons.1 hq with rfl | hq'
        · exact .inr ((h1 p hp').2 ⟨rfl, rfl⟩)
        · exact ih hp' hq' h2
  rcases key with h | h
  · right; omega
  · left; omega

end JIT
end Sampo
