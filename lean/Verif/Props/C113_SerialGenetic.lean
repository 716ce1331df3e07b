import Verif.Lemmas.GeneticSerial
import Verif.Lemmas.GeneticFullDemo

/-!
# C113: the genetic scheduler with the serial scheme

Landscapes without zones (with zones the serial scheme raises, C100); no times given in the specification.
-/

namespace Sampo.C113

open GeneticRun GeneticFull
open Genetic (Ind Problem)
open GeneticLoop (Sample urn counts)

variable {σ : Type} {T : Job σ} {m : Nat} {L D : Int}

/-- Each valid chromosome is decoded to a valid schedule of all works: on time, and all of it after the given start. -/
theorem decoding_completes (h : Ready T m L D) (hts : ∀ v, T.B.assignedTime v = none) {heads : List Nat} {P : Problem}
    (hp : prepare T.J = some (heads, P)) {optimize : Bool} {i : Ind} (hi : Good P optimize i) :
    ∃ N st, (∀ fuelIn fuel, N ≤ fuelIn → 1 ≤ fuel → scheduleSerial T.site T.J heads T.B T.inf T.env fuelIn fuel i = some (some st)) ∧
      Feasible T.J.graph T.J.nodes (LFT.agents T.J.contractors) (C89.Staffs T.J.contractors T.J.spec T.J.reqs) st.sched ∧
      (∀ e ∈ st.sched, T.B.parentTime ≤ e.2.start) ∧
      ∀ e ∈ st.sched, e.2.finish ≤ T.B.parentTime + T.J.nodes.length * (L + D) := by
  obtain ⟨N, st, h1, h2, -, h3, h4⟩ := serial_fine h hts hp hi
  exact ⟨N, st, h1, h2, h3, h4⟩

private theorem decode_all (h : Ready T m L D) (hts : ∀ v, T.B.assignedTime v = none) {heads : List Nat} {P : Problem}
    (hp : prepare T.J = some (heads, P)) {optimize : Bool} : ∀ (hof : List Ind), (∀ i ∈ hof, Good P optimize i) →
    ∃ (N : Nat) (sts : List (Momentum.State σ)), sts.length = hof.length ∧
      (∀ st ∈ sts, Feasible T.J.graph T.J.nodes (LFT.agents T.J.contractors) (C89.Staffs T.J.contractors T.J.spec T.J.reqs) st.sched ∧
        Instant T.site.service st.sched ∧ ∀ e ∈ st.sched, e.2.finish ≤ T.B.parentTime + T.J.nodes.length * (L + D)) ∧
      ∀ fuelIn fuel, N ≤ fuelIn → 1 ≤ fuel →
        all (hof.map fun i => scheduleSerial T.site T.J heads T.B T.inf T.env fuelIn fuel i) = some (some sts)
  | [], _ => ⟨0, [], rfl, by simp, fun _ _ _ _ => rfl⟩
  | i :: hof, hg => by
    obtain ⟨N, sts, h1, h2, h3⟩ := decode_all h hts hp hof fun j hj => hg j (List.mem_cons_of_mem _ hj)
    obtain ⟨M, st, hL, hF, hI, -, hB⟩ := serial_fine h hts hp (hg i List.mem_cons_self)
    refine ⟨max N M, st :: sts, by simp [h1], ?_, fun fuelIn fuel hn hf => ?_⟩
    · intro s hs
      rcases List.mem_cons.1 hs with rfl | hs
      · exact ⟨hF, hI, hB⟩
      · exact h2 s hs
    · simp only [List.map_cons, all, hL fuelIn fuel (by omega) hf, h3 fuelIn fuel (by omega) hf, andThen]

/-- The genetic scheduler with the serial scheme raises no exception, with and without validation, and all schedules it returns (there
is at least one) are valid and contain all works. -/
theorem returns_valid_schedules (h : Ready T m L D) (hts : ∀ v, T.B.assignedTime v = none) (d : Draws) (hd : d.Possible) (R : Randomness)
    (hR : ∀ heads P, prepare T.J = some (heads, P) → R.Possible P) (optimize : Bool) (fit : Ind → List Int) (dim : Nat)
    (hdim : ∀ i, (fit i).length = dim) (sel : List Ind → List Ind) (hsel : ∀ l, ∀ a ∈ sel l, a ∈ l) (maxPlateau : Option Nat)
    (generations : Nat) (lftOnly : Bool) (n : Nat) (hn : 0 < n) (weights : Option (List Nat)) (ws : List Nat)
    (hws : Backend.schedulerWeights weights = some ws) (hpos : ∀ w ∈ ws, 0 < w) (hk : Sample n (urn (counts n ws)) d.kinds) :
    ∃ (N : Nat) (sts : List (Momentum.State σ)), sts ≠ [] ∧
      (∀ validate fuelIn fuel, N ≤ fuelIn → N ≤ fuel →
        runSerial T d R optimize fit sel maxPlateau generations lftOnly n weights validate fuelIn fuel = some (some sts)) ∧
      ∀ st ∈ sts, Feasible T.J.graph T.J.nodes (LFT.agents T.J.contractors) (C89.Staffs T.J.contractors T.J.spec T.J.reqs) st.sched ∧
        ∀ e ∈ st.sched, e.2.finish ≤ T.B.parentTime + T.J.nodes.length * (L + D) := by
  obtain ⟨heads, P, hp⟩ := prepare_some h.project.sound
  obtain ⟨N, xs, inds, pop, -, -, -, hne, hc, -, hpop⟩ := population_fine h hp hd (weights_length hws) hpos hn hk.1 lftOnly
  obtain ⟨s, hs, -, -, hnb⟩ := C56.never_worse_than_first fit dim hdim sel hsel (stage P optimize R) (hR heads P hp).shuffle maxPlateau
    generations pop hne
  have hgood := C92.free_hall_valid h.project.sound hp optimize R (hR heads P hp) fit sel hsel maxPlateau generations pop hc s hs
  obtain ⟨M, sts, h1, h2, h3⟩ := decode_all h hts hp s.hof hgood
  refine ⟨N + M + 1, sts, ?_, fun validate fuelIn fuel hi hf => ?_, fun st hst => ⟨(h2 st hst).1, (h2 st hst).2.2⟩⟩
  · obtain ⟨a, ha⟩ := List.exists_mem_of_ne_nil pop hne
    obtain ⟨b, hb, -⟩ := hnb a ha
    intro h0
    rw [h0] at h1
    have := List.length_pos_of_mem hb
    simp at h1
    omega
  · have hall : (sts.all fun st => ok T (st.sched, [])) = true := by
      rw [List.all_eq_true]
      intro st hst
      exact serial_ok h (h2 st hst).1 (h2 st hst).2.1
    simp only [runSerial, hp, hws, hpop fuelIn fuel (by omega) (by omega), andThen, hs, h3 fuelIn fuel (by omega) (by omega), hall,
      Bool.or_true, if_true]

/-! ### A concrete project -/

open GeneticFullDemo

-- a population of nine over ten generations
example : ∃ (N : Nat) (sts : List (Momentum.State Unit)), sts ≠ [] ∧ (∀ validate fuelIn fuel, N ≤ fuelIn → N ≤ fuel →
      runSerial task draws still true (fun i => [i.res.amount 0 0, 1]) (fun l => l.take 5) none 10 false 9 none validate fuelIn fuel =
        some (some sts)) ∧
    ∀ st ∈ sts, Feasible C22.demo GeneticDemo.works (LFT.agents GeneticDemo.J.contractors)
        (C89.Staffs GeneticDemo.J.contractors GeneticDemo.J.spec GeneticDemo.J.reqs) st.sched ∧ ∀ e ∈ st.sched, e.2.finish ≤ 215 :=
  returns_valid_schedules ready (fun _ => rfl) draws draws_possible still (fun _ P _ => still_possible P) true _ 2 (fun _ => rfl) _
    (fun l a ha => List.mem_of_mem_take ha) none 10 false 9 (by decide) none _ rfl (by decide) ⟨rfl, by decide⟩

private def ind : Ind := ⟨[0, 1, 2, 3], fun w k => if w = 1 then 1 else if w = 2 ∧ k = 0 then 2 else 0, fun _ => 0, GeneticDemo.J.borders⟩

private abbrev IsValid (P : Problem) (i : Ind) : Prop :=
  i.order.Perm (List.range P.n) ∧ (i.order.Pairwise fun v p => ¬ p ∈ P.parents v) ∧ (i.order.Pairwise fun a b => P.prio a ≤ P.prio b) ∧
    (∀ w < P.n, ∀ k < P.m, P.lo w k ≤ i.res.amount w k) ∧ (∀ w < P.n, ∀ k < P.m, i.res.amount w k ≤ P.hi w k) ∧
    (∀ w < P.n, ∀ k < P.m, i.res.amount w k ≤ i.res.border (i.res.contractor w) k) ∧ (∀ w < P.n, i.res.contractor w < P.nc) ∧
    (∀ w < P.n, P.enabled w (i.res.contractor w) = true) ∧ (∀ c < P.nc, ∀ k < P.m, i.res.border c k = P.cap c k) ∧
    ∀ c < P.nc, ∀ k < P.m, 0 ≤ i.res.border c k

-- a valid chromosome of the project and its schedule: chain 1, 2 is put before work 3 is over, work 2 waits for it
example : ∃ heads P, prepare task.J = some (heads, P) ∧ Good P false ind ∧
    (scheduleSerial task.site task.J heads task.B task.inf task.env 40 1 ind).join.map (·.sched) =
      some [(4, ⟨57, 57, [], 0⟩), (2, ⟨37, 57, [⟨0, 0, 2⟩], 0⟩), (1, ⟨5, 15, [⟨0, 0, 2⟩], 0⟩), (3, ⟨7, 37, [⟨0, 0, 1⟩, ⟨0, 1, 1⟩], 0⟩),
        (0, ⟨5, 5, [], 0⟩)] := by
  have key : ((prepare task.J).bind fun hp => (scheduleSerial task.site task.J hp.1 task.B task.inf task.env 40 1 ind).join.map fun st =>
        (st.sched, decide (IsValid hp.2 ind))) =
      some ([(4, ⟨57, 57, [], 0⟩), (2, ⟨37, 57, [⟨0, 0, 2⟩], 0⟩), (1, ⟨5, 15, [⟨0, 0, 2⟩], 0⟩),
        (3, ⟨7, 37, [⟨0, 0, 1⟩, ⟨0, 1, 1⟩], 0⟩), (0, ⟨5, 5, [], 0⟩)], true) := by decide +kernel
  simp only [Option.bind_eq_some_iff, Option.map_eq_some_iff, Prod.mk.injEq, decide_eq_true_eq] at key
  obtain ⟨⟨heads, P⟩, hp, st, hL, h1, h3, h4, h5, h6, h7, h8, h9, h10, h11, h12⟩ := key
  exact ⟨heads, P, hp, ⟨⟨h3, h4, h5, ⟨h6, h7, h8, h9, h10, fun c hc k hk => Int.le_of_eq (h11 c hc k hk)⟩⟩, h12, .inr h11⟩, by rw [hL, ← h1]; rfl⟩

end Sampo.C113
