import Verif.Model.LocalSchedule
import Verif.Lemmas.SwapOrder
import Verif.Spec.Order
import Verif.Lemmas.SchedJIT
import Verif.Lemmas.SchedMomentum
import Verif.Lemmas.Demo

/-!
# C85: local optimization of a finished schedule
-/

namespace Sampo.C85

open LocalSchedule

variable {σ τ : Type}

/-- Placing a work changes nothing but the works of its chain. -/
def OnlyChain (chain : Nat → List Nat) (place : Placer τ) : Prop :=
  ∀ t sw v x r, place t sw v x = some r → ∀ u, u ∉ chain v → Sched.get r.2 u = Sched.get sw u

private theorem jit_row {E : Env σ} {team : List Worker} {c : Nat} {times : ExecTimes} : ∀ {vs : List Nat} {cur : Int} {s : σ} {sw : Sched}
    {r : Int × σ × Sched}, JIT.placeChain E team c times vs cur s sw = some r → ∀ u, u ∉ vs → Sched.get r.2.2 u = Sched.get sw u
  | [], cur, s, sw, r, h, u, _ => by
    simp only [JIT.placeChain, Option.some.injEq] at h
    rw [← h]
  | v :: vs, cur, s, sw, r, h, u, hu => by
    simp only [JIT.placeChain] at h
    split at h
    · obtain ⟨d, -, h⟩ := Option.bind_eq_some_iff.mp h
      rw [jit_row h u fun h' => hu (List.mem_cons_of_mem _ h'), get_cons, if_neg]
      rintro rfl
      exact hu List.mem_cons_self
    · cases h

private theorem momentum_row {E : Env σ} {team : List Worker} {c : Nat} {times : ExecTimes} : ∀ {vs : List Nat} {cur : Int} {s : σ}
    {sw : Sched} {r : Int × σ × Sched}, Momentum.placeChain E team c times vs cur s sw = some r →
    ∀ u, u ∉ vs → Sched.get r.2.2 u = Sched.get sw u
  | [], cur, s, sw, r, h, u, _ => by
    simp only [Momentum.placeChain, Option.some.injEq] at h
    rw [← h]
  | v :: vs, cur, s, sw, r, h, u, hu => by
    simp only [Momentum.placeChain] at h
    obtain ⟨d, -, h⟩ := Option.bind_eq_some_iff.mp h
    rw [momentum_row h u fun h' => hu (List.mem_cons_of_mem _ h'), get_cons, if_neg]
    rintro rfl
    exact hu List.mem_cons_self

/-- Both timelines do so. -/
theorem timelines_only_chain (E : Env σ) (independent : Nat → Bool) (assigned : Nat → Option ExecTimes) (parentTime inf : Int)
    (fuelIn fuel : Nat) : OnlyChain E.chain (jit E independent assigned parentTime fuel) ∧
      OnlyChain E.chain (momentum E independent assigned parentTime inf fuelIn fuel) := by
  constructor
  · intro t sw v x r h u hu
    unfold jit at h
    split at h
    · obtain ⟨st, hst, rfl⟩ := Option.map_eq_some_iff.mp h
      clear h
      unfold JIT.scheduleAt at hst
      obtain ⟨q, hq, h⟩ := Option.bind_eq_some_iff.mp hst
      obtain ⟨tl, -, h⟩ := Option.bind_eq_some_iff.mp h
      obtain ⟨env, -, rfl⟩ := Option.map_eq_some_iff.mp h
      exact jit_row hq u hu
    · cases h
  · intro t sw v x r h u hu
    unfold momentum at h
    split at h
    · rename_i st hs
      obtain rfl := Option.some.inj h
      unfold Momentum.schedule at hs
      obtain ⟨f, -, hs⟩ := Option.map_eq_some_iff.mp hs
      obtain ⟨f, rfl, h⟩ := Option.bind_eq_some_iff.mp hs
      unfold Momentum.scheduleAt at h
      obtain ⟨q, hq, h⟩ := Option.bind_eq_some_iff.mp h
      obtain ⟨tl, -, h⟩ := Option.bind_eq_some_iff.mp h
      obtain ⟨env, -, rfl⟩ := Option.map_eq_some_iff.mp h
      exact momentum_row hq u hu
    · cases h

/-- Placing a work gives every work of its chain the team and the contractor of the old row. -/
def OldTeam (chain : Nat → List Nat) (place : Placer τ) : Prop :=
  ∀ t sw v x r, place t sw v x = some r → ∀ u ∈ chain v, ∃ y, Sched.get r.2 u = some y ∧ y.team = x.team ∧ y.contractor = x.contractor

private theorem jit_team {E : Env σ} {team : List Worker} {c : Nat} {times : ExecTimes} : ∀ {vs : List Nat} {cur : Int} {s : σ} {sw : Sched}
    {r : Int × σ × Sched}, JIT.placeChain E team c times vs cur s sw = some r →
    ∀ u ∈ vs, ∃ y, Sched.get r.2.2 u = some y ∧ y.team = team ∧ y.contractor = c
  | [], cur, s, sw, r, h, u, hu => by cases hu
  | v :: vs, cur, s, sw, r, h, u, hu => by
    simp only [JIT.placeChain] at h
    split at h
    · obtain ⟨d, -, h⟩ := Option.bind_eq_some_iff.mp h
      by_cases hm : u ∈ vs
      · exact jit_team h u hm
      · rw [jit_row h u hm, get_cons, if_pos ((List.mem_cons.mp hu).resolve_right hm).symm]
        exact ⟨_, rfl, rfl, rfl⟩
    · cases h

private theorem momentum_team {E : Env σ} {team : List Worker} {c : Nat} {times : ExecTimes} : ∀ {vs : List Nat} {cur : Int} {s : σ}
    {sw : Sched} {r : Int × σ × Sched}, Momentum.placeChain E team c times vs cur s sw = some r →
    ∀ u ∈ vs, ∃ y, Sched.get r.2.2 u = some y ∧ y.team = team ∧ y.contractor = c
  | [], cur, s, sw, r, h, u, hu => by cases hu
  | v :: vs, cur, s, sw, r, h, u, hu => by
    simp only [Momentum.placeChain] at h
    obtain ⟨d, -, h⟩ := Option.bind_eq_some_iff.mp h
    by_cases hm : u ∈ vs
    · exact momentum_team h u hm
    · rw [momentum_row h u hm, get_cons, if_pos ((List.mem_cons.mp hu).resolve_right hm).symm]
      exact ⟨_, rfl, rfl, rfl⟩

/-- Both timelines do so. -/
theorem timelines_old_team (E : Env σ) (independent : Nat → Bool) (assigned : Nat → Option ExecTimes) (parentTime inf : Int)
    (fuelIn fuel : Nat) : OldTeam E.chain (jit E independent assigned parentTime fuel) ∧
      OldTeam E.chain (momentum E independent assigned parentTime inf fuelIn fuel) := by
  constructor
  · intro t sw v x r h u hu
    unfold jit at h
    split at h
    · obtain ⟨st, hst, rfl⟩ := Option.map_eq_some_iff.mp h
      clear h
      unfold JIT.scheduleAt at hst
      obtain ⟨q, hq, h⟩ := Option.bind_eq_some_iff.mp hst
      obtain ⟨tl, -, h⟩ := Option.bind_eq_some_iff.mp h
      obtain ⟨env, -, rfl⟩ := Option.map_eq_some_iff.mp h
      exact jit_team hq u hu
    · cases h
  · intro t sw v x r h u hu
    unfold momentum at h
    split at h
    · rename_i st hs
      obtain rfl := Option.some.inj h
      unfold Momentum.schedule at hs
      obtain ⟨f, -, hs⟩ := Option.map_eq_some_iff.mp hs
      obtain ⟨f, rfl, h⟩ := Option.bind_eq_some_iff.mp hs
      unfold Momentum.scheduleAt at h
      obtain ⟨q, hq, h⟩ := Option.bind_eq_some_iff.mp h
      obtain ⟨tl, -, h⟩ := Option.bind_eq_some_iff.mp h
      obtain ⟨env, -, rfl⟩ := Option.map_eq_some_iff.mp h
      exact momentum_team hq u hu
    · cases h

private theorem recalc_spec {chain : Nat → List Nat} {place : Placer τ} (hp : OnlyChain chain place) {old : Sched} {all : List Nat}
    (hall : ∀ v ∈ all, ∀ u ∈ all, u ∈ chain v → u = v) : ∀ {vs : List Nat} {t : τ} {new r : Sched}, (∀ v ∈ vs, v ∈ all) →
    recalc place old vs t new = some r →
    (∀ v ∈ vs, (Sched.get old v).isSome ∧ Sched.get r v = Sched.get old v) ∧
      (∀ v ∈ all, v ∉ vs → Sched.get r v = Sched.get new v) ∧
      ∀ u, (∀ v ∈ vs, u ≠ v ∧ u ∉ chain v) → Sched.get r u = Sched.get new u
  | [], t, new, r, _, h => by
    obtain rfl := Option.some.inj h
    exact ⟨(fun v hv => by cases hv), fun _ _ _ => rfl, fun _ _ => rfl⟩
  | v :: vs, t, new, r, hsub, h => by
    unfold recalc at h
    split at h
    · cases h
    · rename_i x hx
      split at h
      · cases h
      · rename_i q hq
        obtain ⟨h1, h2, h3⟩ := recalc_spec hp hall (fun u hu => hsub u (List.mem_cons_of_mem _ hu)) h
        refine ⟨fun u hu => ?_, fun u hu hn => ?_, fun u hu => ?_⟩
        · by_cases hm : u ∈ vs
          · exact h1 u hm
          · have : u = v := by
              rcases List.mem_cons.mp hu with rfl | hu
              · rfl
              · exact absurd hu hm
            subst this
            refine ⟨by rw [hx]; rfl, ?_⟩
            rw [h2 u (hsub u List.mem_cons_self) hm, get_cons, if_pos rfl, hx]
        · have hne : v ≠ u := fun he => hn (he ▸ List.mem_cons_self)
          rw [h2 u hu fun hm => hn (List.mem_cons_of_mem _ hm), get_cons, if_neg hne]
          exact hp _ _ _ _ _ hq u fun hc => hne (hall v (hsub v List.mem_cons_self) u hu hc).symm
        · obtain ⟨ha, hb⟩ := hu v List.mem_cons_self
          rw [h3 u fun w hw => hu w (List.mem_cons_of_mem _ hw), get_cons, if_neg fun he => ha he.symm]
          exact hp _ _ _ _ _ hq u hb

variable {chain : Nat → List Nat} {place : Placer τ} {fresh : τ} {par chi : Nat → List Nat} {start stop : Nat} {old r : Sched}
  {order : List Nat}

/-- Nothing is recalculated for the works of the order: if the optimizer returns a schedule, each of them has its old times, team and
contractor. -/
theorem works_keep_times (hp : OnlyChain chain place) (hall : ∀ v ∈ order, ∀ u ∈ order, u ∈ chain v → u = v)
    (h : optimize place fresh par chi start stop old order = some r) : ∀ v ∈ order, ∃ x, Sched.get old v = some x ∧ Sched.get r v = some x := by
  unfold optimize at h
  split at h
  · obtain ⟨h1, -⟩ := recalc_spec hp (all := order.reverse)
      (fun v hv u hu => hall v (List.mem_reverse.mp hv) u (List.mem_reverse.mp hu)) (fun v hv => hv) h
    intro v hv
    obtain ⟨h2, h3⟩ := h1 v (List.mem_reverse.mpr hv)
    obtain ⟨x, hx⟩ := Option.isSome_iff_exists.mp h2
    exact ⟨x, hx, h3.trans hx⟩
  · cases h

private theorem recalc_other {chain : Nat → List Nat} {place : Placer τ} (hp : OnlyChain chain place) {old : Sched} {u : Nat} :
    ∀ {vs : List Nat} {t : τ} {new r : Sched}, (∀ v ∈ vs, u ≠ v ∧ u ∉ chain v) → recalc place old vs t new = some r →
    Sched.get r u = Sched.get new u
  | [], t, new, r, _, h => by rw [← Option.some.inj h]
  | v :: vs, t, new, r, hu, h => by
    unfold recalc at h
    split at h
    · cases h
    · split at h
      · cases h
      · rename_i q hq
        obtain ⟨ha, hb⟩ := hu v List.mem_cons_self
        rw [recalc_other hp (fun w hw => hu w (List.mem_cons_of_mem _ hw)) h, get_cons, if_neg fun he => ha he.symm]
        exact hp _ _ _ _ _ hq u hb

private theorem recalc_team {chain : Nat → List Nat} {place : Placer τ} (hp : OnlyChain chain place) (ht : OldTeam chain place)
    {old : Sched} : ∀ {vs : List Nat} {t : τ} {new r : Sched}, vs.Nodup → (∀ v ∈ vs, ∀ w ∈ vs, v ≠ w → ∀ u ∈ chain v, u ∉ chain w) →
    recalc place old vs t new = some r → ∀ v ∈ vs, ∀ u ∈ chain v, u ∉ vs →
    ∃ x y, Sched.get old v = some x ∧ Sched.get r u = some y ∧ y.team = x.team ∧ y.contractor = x.contractor
  | [], t, new, r, _, _, _, v, hv, _, _, _ => by cases hv
  | w :: vs, t, new, r, hnd, hdis, h, v, hv, u, hu, hun => by
    have hdis' := fun a ha b hb => hdis a (List.mem_cons_of_mem w ha) b (List.mem_cons_of_mem w hb)
    have hun' : u ∉ vs := fun hm => hun (List.mem_cons_of_mem _ hm)
    have hw : w ∉ vs := (List.nodup_cons.mp hnd).1
    unfold recalc at h
    split at h
    · cases h
    · rename_i x hx
      split at h
      · cases h
      · rename_i q hq
        rcases List.mem_cons.mp hv with rfl | hv'
        · obtain ⟨y, hy, h1, h2⟩ := ht _ _ _ _ _ hq u hu
          refine ⟨x, y, hx, ?_, h1, h2⟩
          rw [recalc_other hp (fun w' hw' => ⟨fun he => hun' (by rw [he]; exact hw'), hdis v List.mem_cons_self w' (List.mem_cons_of_mem _ hw')
            (fun he => hw (he ▸ hw')) u hu⟩) h, get_cons, if_neg fun he : v = u => hun (by rw [he]; exact List.mem_cons_self)]
          exact hy
        · exact recalc_team hp ht (List.nodup_cons.mp hnd).2 hdis' h v hv' u hu hun'

/-- The later works of an inseparable chain keep the team and the contractor of its first work. -/
theorem chain_keeps_team (hp : OnlyChain chain place) (ht : OldTeam chain place) (hnd : order.Nodup)
    (hdis : ∀ v ∈ order, ∀ w ∈ order, v ≠ w → ∀ u ∈ chain v, u ∉ chain w)
    (h : optimize place fresh par chi start stop old order = some r) : ∀ v ∈ order, ∀ u ∈ chain v, u ∉ order →
    ∃ x y, Sched.get old v = some x ∧ Sched.get r u = some y ∧ y.team = x.team ∧ y.contractor = x.contractor := by
  unfold optimize at h
  split at h
  · intro v hv u hu hn
    exact recalc_team hp ht (List.nodup_reverse.mpr hnd)
      (fun a ha b hb => hdis a (List.mem_reverse.mp ha) b (List.mem_reverse.mp hb)) h v (List.mem_reverse.mpr hv) u hu
      fun hm => hn (List.mem_reverse.mp hm)
  · cases h

/-- Without inseparable chains the schedule returned is the old one. -/
theorem unchanged_without_chains (hp : OnlyChain chain place) (hch : ∀ v ∈ order, chain v = [v]) (hold : ∀ v, v ∈ old.works ↔ v ∈ order)
    (h : optimize place fresh par chi start stop old order = some r) : ∀ v, Sched.get r v = Sched.get old v := by
  have hall : ∀ v ∈ order, ∀ u ∈ order, u ∈ chain v → u = v := by
    intro v hv u _ hc
    rw [hch v hv] at hc
    exact List.mem_singleton.mp hc
  intro v
  by_cases hv : v ∈ order
  · obtain ⟨x, h1, h2⟩ := works_keep_times hp hall h v hv
    rw [h1, h2]
  · unfold optimize at h
    split at h
    · obtain ⟨-, -, h3⟩ := recalc_spec hp (all := order.reverse)
        (fun v hv u hu => hall v (List.mem_reverse.mp hv) u (List.mem_reverse.mp hu)) (fun v hv => hv) h
      rw [h3 v fun u hu => ?_, get_nil]
      · cases hg : Sched.get old v with
        | none => rfl
        | some x => exact absurd ((hold v).mp ((get_isSome_iff old v).mp ⟨x, hg⟩)) hv
      · rw [List.mem_reverse] at hu
        refine ⟨fun he => hv (he ▸ hu), ?_⟩
        rw [hch u hu, List.mem_singleton]
        rintro rfl
        exact hv hu
    · cases h

/-- So a schedule that keeps precedence and lags still does. -/
theorem precedence_without_chains_partial (hp : OnlyChain chain place) (hch : ∀ v ∈ order, chain v = [v])
    (hold : ∀ v, v ∈ old.works ↔ v ∈ order) (h : optimize place fresh par chi start stop old order = some r)
    {edges : Nat → List (Nat × Int)} (hr : RespectsPrecedence edges old) : RespectsPrecedence edges r := by
  intro v x hx e he
  rw [unchanged_without_chains hp hch hold h] at hx
  obtain ⟨y, h1, h2⟩ := hr v x hx e he
  exact ⟨y, by rw [unchanged_without_chains hp hch hold h]; exact h1, h2⟩

/-- On an order of a scheduler, from the start of the project on, no team is ever changed, in any area: what the optimizer does is
`recalc_schedule`.  The works without predecessors and without successors, start and finish, have no teams. -/
theorem nothing_parallelized (hnd : order.Nodup) (hv : OrderRespects (fun v p => p ∈ par v) order) {s : Nat} (hs : order.head? = some s)
    (hpar : ∀ v ∈ order, v ≠ s → ∃ p, p ∈ par v) (hstop : stop ≤ order.length) (hold : ∀ v ∈ order, ∃ x, Sched.get old v = some x)
    (hteams : ∀ v ∈ order, v = s ∨ chi v = [] → ∀ x, Sched.get old v = some x → x.team = []) :
    optimize place fresh par chi start stop old order = recalc place old order.reverse fresh [] := by
  unfold optimize
  rw [if_pos]
  rw [List.all_eq_true]
  intro i hi
  rw [List.mem_reverse, List.mem_range'_1] at hi
  have hil : i < order.length := by omega
  obtain ⟨mine, hmine⟩ := hold order[i] (List.getElem_mem hil)
  unfold tryRow
  rw [List.getElem?_eq_getElem hil]
  dsimp only
  rw [hmine]
  dsimp only
  split
  · rfl
  · rename_i cand hf
    have hacc := List.find?_some hf
    have hmem := List.mem_of_find?_eq_some hf
    obtain ⟨m, hm⟩ := List.mem_iff_getElem?.1 hmem
    rw [List.getElem?_drop, List.getElem?_take] at hm
    by_cases hmi : start + m < i
    swap
    · rw [if_neg hmi] at hm; cases hm
    rw [if_pos hmi] at hm
    have hcm : cand ∈ order := List.mem_of_getElem? hm
    unfold SwapOrder.accepted at hacc
    simp only [Bool.and_eq_true, decide_eq_true_eq, List.all_eq_true, Bool.not_eq_true', decide_eq_false_iff_not, not_le] at hacc
    have hcs : cand = s := by
      by_contra hne
      obtain ⟨p, hpp⟩ := hpar cand hcm hne
      have h4 := hacc.2 p hpp
      cases hix : SwapOrder.indexOf order start stop p with
      | none => rw [hix] at h4; simp at h4
      | some k =>
        rw [hix] at h4
        simp only [Option.getD_some] at h4
        obtain ⟨_, _, hk⟩ := (SwapOrder.indexOf_iff hnd p k).1 hix
        exact (SwapOrder.pairwise_iff_getElem? _ _).1 hv (start + m) k cand p (by omega) hm hk hpp
    have hz : start + m = 0 := by
      rw [List.head?_eq_getElem?] at hs
      obtain ⟨h1, h1'⟩ := List.getElem?_eq_some_iff.mp hm
      obtain ⟨h2, h2'⟩ := List.getElem?_eq_some_iff.mp hs
      exact (List.Nodup.getElem_inj_iff hnd).mp (h1'.trans (hcs.trans h2'.symm))
    have hch : chi order[i] = [] := by
      rw [List.eq_nil_iff_forall_not_mem]
      intro c hc
      have h5 := hacc.1.2 c hc
      rw [(SwapOrder.indexOf_iff hnd cand (start + m)).2 ⟨by omega, by omega, hm⟩, hz] at h5
      simp at h5
    obtain ⟨theirs, ht⟩ := hold cand hcm
    rw [ht]
    dsimp only
    rw [hteams cand hcm (.inl hcs) theirs ht, hteams _ (List.getElem_mem hil) (.inr hch) mine hmine]
    rfl

/-- Not proved because false: "the optimizer returns a schedule for every order".  Two works without predecessors: the workers are asked for
an attribute that they do not have. -/
theorem attribute_error : ∃ (par chi : Nat → List Nat) (old : Sched) (order : List Nat), (∀ v ∈ order, ∃ x, Sched.get old v = some x) ∧
    ∀ (τ : Type) (place : Placer τ) (fresh : τ), optimize place fresh par chi 0 2 old order = none :=
  ⟨fun _ => [], fun _ => [], [(1, ⟨0, 5, [⟨0, 0, 1⟩], 0⟩), (0, ⟨0, 5, [⟨0, 0, 1⟩], 0⟩)], [0, 1],
    (by
      intro v hv
      rcases List.mem_cons.mp hv with rfl | hv
      · exact ⟨_, rfl⟩
      · obtain rfl := List.mem_singleton.mp hv
        exact ⟨_, rfl⟩), fun _ _ _ => rfl⟩

/-! ### Inseparable chains -/

private def crew : List Worker := [⟨0, 0, 2⟩]

/-- The schedule made for the project of `Demo` by the just-in-time list scheduler. -/
private def before : Sched := [(4, ⟨67, 67, [], 0⟩), (2, ⟨47, 67, crew, 0⟩), (1, ⟨37, 47, crew, 0⟩), (3, ⟨7, 37, crew, 0⟩), (0, ⟨5, 5, [], 0⟩)]

example : ((JIT.build Demo.env (Demo.plan _) Demo.pool () 100 Demo.order).bind fun r => r.map fun s => s.sched) = some before := by
  decide +kernel

private def parents (v : Nat) : List Nat := (Demo.edges v).map (·.1)

private def children (v : Nat) : List Nat := [0, 1, 2, 3, 4].filter fun c => v ∈ parents c

private theorem before_ok : RespectsPrecedence Demo.env.edgesTo before := by
  intro v x hx
  have hv : v ∈ before.works := (get_isSome_iff before v).mp ⟨x, hx⟩
  have : ∀ v ∈ before.works, ∀ e ∈ Demo.env.edgesTo v, ∃ z ∈ before, ∃ y ∈ before, z.1 = v ∧ y.1 = e.1 ∧ Sched.get before v = some z.2 ∧
      Sched.get before e.1 = some y.2 ∧ y.2.finish + e.2 ≤ z.2.start := by decide +kernel
  intro e he
  obtain ⟨z, -, y, -, -, -, h1, h2, h3⟩ := this v hv e he
  rw [hx] at h1
  obtain rfl := Option.some.inj h1
  exact ⟨y.2, h2, h3⟩

private theorem torn {t u : Int} {r : Option Sched} (h : (r.bind fun r => (Sched.get r 2).map fun x => x.start) = some t)
    (h' : (r.bind fun r => (Sched.get r 1).map fun x => x.finish) = some u) (hlt : t < u) :
    ∃ s, r = some s ∧ ¬ RespectsPrecedence Demo.env.edgesTo s := by
  obtain ⟨s, rfl, h⟩ := Option.bind_eq_some_iff.mp h
  rw [Option.bind_some] at h'
  obtain ⟨x, hx, rfl⟩ := Option.map_eq_some_iff.mp h
  obtain ⟨y, hy, rfl⟩ := Option.map_eq_some_iff.mp h'
  refine ⟨s, rfl, fun hr => ?_⟩
  obtain ⟨z, hz, hle⟩ := hr 2 x hx (1, 0) (by decide)
  dsimp only at hz hle
  rw [hy] at hz
  obtain rfl := Option.some.inj hz
  omega

/-- Not proved because false: "the result keeps precedence".  The later works of an inseparable chain get the times of the new timeline,
on which works are placed from the finish of the project to its start, while the first one keeps its old times: work 2 of the chain 1, 2
now is finished before work 1 starts.  This is so with both timelines, here for all works as the area. -/
theorem chain_torn : ∃ (par chi : Nat → List Nat) (old : Sched) (order : List Nat), RespectsPrecedence Demo.env.edgesTo old ∧
    (∃ r, optimize (jit Demo.env (fun _ => false) (fun _ => none) 5 100) (JIT.init Demo.pool, ()) par chi 0 4 old order = some r ∧
      ¬ RespectsPrecedence Demo.env.edgesTo r) ∧
    ∃ r, optimize (momentum Demo.env (fun _ => false) (fun _ => none) 5 TIME_INF 100 100) (Momentum.init Demo.pool, ()) par chi 0 4 old
      order = some r ∧ ¬ RespectsPrecedence Demo.env.edgesTo r :=
  ⟨parents, children, before, Demo.order, before_ok, torn (t := 10) (u := 47) (by decide +kernel) (by decide +kernel) (by decide),
    torn (t := 15) (u := 47) (by decide +kernel) (by decide +kernel) (by decide)⟩

example : Demo.order.Nodup ∧ (∀ v ∈ Demo.order, ∀ w ∈ Demo.order, v ≠ w → ∀ u ∈ Demo.env.chain v, u ∉ Demo.env.chain w) ∧
    (∃ v ∈ Demo.order, ∃ u ∈ Demo.env.chain v, u ∉ Demo.order) ∧
    (optimize (jit Demo.env (fun _ => false) (fun _ => none) 5 100) (JIT.init Demo.pool, ()) parents children 0 4 before
      Demo.order).isSome = true ∧
    (optimize (momentum Demo.env (fun _ => false) (fun _ => none) 5 TIME_INF 100 100) (Momentum.init Demo.pool, ()) parents children 0 4
      before Demo.order).isSome = true := by
  decide +kernel

/-! ### The other hypotheses can be met: the same works without the inseparable chain -/

private def flat : Env Unit := { Demo.env with chain := fun v => [v], insepParent := fun _ => none }

private def line : List Nat := [0, 3, 1, 2, 4]

example : (∀ v ∈ line, flat.chain v = [v]) ∧ (∀ v, v ∈ before.works ↔ v ∈ line) ∧ line.Nodup ∧
    OrderRespects (fun v p => p ∈ parents v) line ∧ line.head? = some 0 ∧ (∀ v ∈ line, v ≠ 0 → ∃ p ∈ [0, 1, 2, 3], p ∈ parents v) ∧
    (∀ v ∈ line, ∃ x ∈ before, Sched.get before v = some x.2 ∧ (v = 0 ∨ children v = [] → x.2.team = [])) ∧
    (optimize (jit flat (fun _ => false) (fun _ => none) 5 100) (JIT.init Demo.pool, ()) parents children 0 5 before line).isSome = true := by
  refine ⟨fun v _ => rfl, fun v => ?_, by decide, by unfold OrderRespects; decide, rfl, by decide, by decide, by decide +kernel⟩
  simp [before, Sched.works, line]
  omega

end Sampo.C85
