import Verif.Model.Costs
import Mathlib.Algebra.BigOperators.Group.List.Basic
import Mathlib.Algebra.BigOperators.Ring.List
import Mathlib.Tactic.Ring
import Mathlib.Data.List.Forall2

/-!
# C124: costs of scheduled works
-/

namespace Sampo.C124
open Costs

variable {cs : List Contractor}

/-- Contractors with different ids, each with different names of workers. -/
structure Sound (cs : List Contractor) : Prop where
  ids : (cs.map (·.id)).Nodup
  names : ∀ c ∈ cs, (c.workers.map (·.1)).Nodup

/-- The entry of a contractor for a kind of workers. -/
def Offers (cs : List Contractor) (contractor name : Nat) (w : Worker) : Prop := ∃ c ∈ cs, c.id = contractor ∧ (name, w) ∈ c.workers

/-- The cost of a work is what its contractor's workers cost: for each kind, number times price times duration. -/
def Due (price : Worker → ℚ) (cs : List Contractor) (d : Decision) (x : ℚ) : Prop :=
  ∃ prices : List ℚ, List.Forall₂ (fun e p => ∃ w, Offers cs d.contractor e.1 w ∧ p = price w * e.2) d.counts prices ∧ x = prices.sum * d.duration

private theorem added (pool : Pool) (id : Nat) (ws : List (Nat × Worker)) (hn : (ws.map (·.1)).Nodup) (name k : Nat) :
    ws.foldl (fun pool e name i => if name = e.1 ∧ i = id then some e.2.copy else pool name i) pool name k =
      if k = id then (((ws.lookup name).map Worker.copy).or (pool name k)) else pool name k := by
  induction ws generalizing pool with
  | nil => simp
  | cons e ws ih =>
    rw [List.map_cons, List.nodup_cons] at hn
    rw [List.foldl_cons, ih _ hn.2]
    by_cases hk : k = id
    · rw [if_pos hk, if_pos hk, List.lookup_cons]
      by_cases he : name = e.1
      · have hl : ws.lookup name = none := by
          rw [List.lookup_eq_none_iff]
          rintro ⟨a, b⟩ hp
          have : a ≠ e.1 := fun h => hn.1 (h ▸ List.mem_map_of_mem (f := Prod.fst) hp)
          simpa [he] using fun h => this h.symm
        rw [hl]
        simp [he, hk]
      · rw [show (name == e.1) = false by simpa using he]
        simp [he]
    · rw [if_neg hk, if_neg hk, if_neg (fun h => hk h.2)]

private theorem pooled (h : Sound cs) (pool : Pool) (hp : ∀ name, ∀ c ∈ cs, pool name c.id = none) (name k : Nat) (w : Worker) :
    (cs.foldl addContractor pool) name k = some w ↔ pool name k = some w ∨ ∃ v, Offers cs k name v ∧ w = v.copy := by
  induction cs generalizing pool with
  | nil => simp [Offers]
  | cons c cs ih =>
    have hnames := h.names c List.mem_cons_self
    have hids := h.ids
    rw [List.map_cons, List.nodup_cons] at hids
    have hadd : addContractor pool c = fun name k =>
        if k = c.id then (((c.workers.lookup name).map Worker.copy).or (pool name k)) else pool name k := by
      funext name k
      exact added pool c.id c.workers hnames name k
    have hne : ∀ c' ∈ cs, c'.id ≠ c.id := fun c' hc' he => hids.1 (he ▸ List.mem_map_of_mem (f := Contractor.id) hc')
    rw [List.foldl_cons, ih ⟨hids.2, fun c' hc' => h.names c' (List.mem_cons_of_mem _ hc')⟩ _ (by
      intro n c' hc'
      rw [hadd]
      dsimp only
      rw [if_neg (hne c' hc')]
      exact hp n c' (List.mem_cons_of_mem _ hc')), hadd]
    dsimp only
    have hlook : ∀ v, c.workers.lookup name = some v ↔ (name, v) ∈ c.workers := by
      intro v
      constructor
      · intro hl
        obtain ⟨l1, l2, h1, -⟩ := List.lookup_eq_some_iff.1 hl
        rw [h1]
        simp
      · intro hm
        obtain ⟨l1, l2, h1⟩ := List.append_of_mem hm
        refine List.lookup_eq_some_iff.2 ⟨l1, l2, h1, ?_⟩
        rintro ⟨a, b⟩ hp'
        rw [h1, List.map_append, List.nodup_append] at hnames
        have : a ≠ name := hnames.2.2 a (List.mem_map_of_mem (f := Prod.fst) hp') name (by simp)
        simpa using fun h => this h.symm
    by_cases hk : k = c.id
    · subst hk
      rw [if_pos rfl, hp name c List.mem_cons_self, Option.or_none]
      constructor
      · rintro (h1 | ⟨v, ⟨c', hc', h1, -⟩, -⟩)
        · obtain ⟨v, hv, rfl⟩ := Option.map_eq_some_iff.1 h1
          exact .inr ⟨v, ⟨c, List.mem_cons_self, rfl, (hlook v).1 hv⟩, rfl⟩
        · exact absurd h1 (hne c' hc')
      · rintro (h1 | ⟨v, ⟨c', hc', h1, h2⟩, rfl⟩)
        · cases h1
        · rcases List.mem_cons.1 hc' with rfl | hc'
          · exact .inl (Option.map_eq_some_iff.2 ⟨v, (hlook v).2 h2, rfl⟩)
          · exact absurd h1 (hne c' hc')
    · rw [if_neg hk]
      refine or_congr Iff.rfl (exists_congr fun v => and_congr_left fun _ => ?_)
      constructor
      · rintro ⟨c', hc', h1⟩
        exact ⟨c', List.mem_cons_of_mem _ hc', h1⟩
      · rintro ⟨c', hc', h1, h2⟩
        rcases List.mem_cons.1 hc' with rfl | hc'
        · exact absurd h1.symm hk
        · exact ⟨c', hc', h1, h2⟩

private theorem mapM_iff {α β : Type} (f : α → Option β) (l : List α) (ys : List β) :
    l.mapM f = some ys ↔ List.Forall₂ (fun a b => f a = some b) l ys := by
  induction l generalizing ys with
  | nil => simp [eq_comm]
  | cons a l ih =>
    rw [List.mapM_cons, List.forall₂_cons_left_iff]
    constructor
    · intro h
      obtain ⟨y, hy, h1⟩ := Option.bind_eq_some_iff.1 h
      obtain ⟨zs, hz, h2⟩ := Option.bind_eq_some_iff.1 h1
      cases h2
      exact ⟨y, zs, hy, (ih zs).1 hz, rfl⟩
    · rintro ⟨y, zs, hy, hz, rfl⟩
      rw [hy, (ih zs).2 hz]
      rfl

private theorem member (h : Sound cs) (k name : Nat) (n : Int) (w : Worker) :
    ((poolOf cs name k).map fun w => w.copy.withCount n) = some w ↔ ∃ v, Offers cs k name v ∧ w = v.copy.copy.withCount n := by
  rw [Option.map_eq_some_iff]
  constructor
  · rintro ⟨u, hu, rfl⟩
    rcases (pooled h (fun _ _ => none) (fun _ _ _ => rfl) name k u).1 hu with h1 | ⟨v, h1, rfl⟩
    · cases h1
    · exact ⟨v, h1, rfl⟩
  · rintro ⟨v, hv, rfl⟩
    exact ⟨v.copy, (pooled h (fun _ _ => none) (fun _ _ _ => rfl) name k _).2 (.inr ⟨v, hv, rfl⟩), rfl⟩

private theorem cost_copy (v : Worker) (n : Int) : (v.copy.copy.withCount n).cost = 10 * v.productivity * n := by
  show v.productivity * 10 * (n : ℚ) = _
  ring

private theorem due_iff (h : Sound cs) (d : Decision) (x : ℚ) :
    ((team (poolOf cs) d.contractor d.counts).map fun t => workCost t d.duration) = some x ↔ Due (fun w => 10 * w.productivity) cs d x := by
  rw [Option.map_eq_some_iff]
  constructor
  · rintro ⟨t, ht, rfl⟩
    have h1 := (mapM_iff _ _ _).1 ht
    refine ⟨t.map Worker.cost, ?_, ?_⟩
    · rw [List.forall₂_map_right_iff]
      refine h1.imp fun e w hw => ?_
      obtain ⟨v, hv, rfl⟩ := (member h _ _ _ _).1 hw
      exact ⟨v, hv, cost_copy v e.2⟩
    · unfold workCost
      rw [List.sum_map_mul_right]
  · rintro ⟨prices, hp, rfl⟩
    have h2 : ∀ (counts : List (Nat × Int)) (prices : List ℚ),
        List.Forall₂ (fun e p => ∃ w, Offers cs d.contractor e.1 w ∧ p = 10 * w.productivity * e.2) counts prices →
        ∃ t : List Worker, List.Forall₂ (fun e w => ((poolOf cs e.1 d.contractor).map fun w => w.copy.withCount e.2) = some w) counts t ∧
          prices = t.map Worker.cost := by
      intro counts prices hf
      induction hf with
      | nil => exact ⟨[], .nil, rfl⟩
      | cons hx _ ih =>
        obtain ⟨t, ht, rfl⟩ := ih
        obtain ⟨v, hv, rfl⟩ := hx
        exact ⟨_ :: t, .cons ((member h _ _ _ _).2 ⟨v, hv, rfl⟩) ht, by rw [List.map_cons, cost_copy]⟩
    obtain ⟨t, ht, rfl⟩ := h2 _ _ hp
    refine ⟨t, (mapM_iff _ _ _).2 ht, ?_⟩
    unfold workCost
    rw [List.sum_map_mul_right]

/-- What schedulers charge: ten times the mean productivity of the contractor's workers for each of them and each unit of time, and an error
exactly for a kind that the contractor does not have. -/
theorem charged (h : Sound cs) (l : List Decision) (xs : List ℚ) :
    costs cs l = some xs ↔ List.Forall₂ (Due (fun w => 10 * w.productivity) cs) l xs := by
  unfold costs
  rw [mapM_iff]
  constructor <;> intro h1 <;> refine h1.imp fun d x hx => ?_
  · exact (due_iff h d x).1 hx
  · exact (due_iff h d x).2 hx

/-- The costs of works are numbers times prices times duration if prices are left at their default.
Missing: other prices, see `prices_ignored` and `prices_fail`. -/
theorem costs_partial (h : Sound cs) (hp : ∀ c ∈ cs, ∀ e ∈ c.workers, e.2.price = 10 * e.2.productivity) (l : List Decision) (xs : List ℚ) :
    costs cs l = some xs ↔ List.Forall₂ (Due (·.price) cs) l xs := by
  rw [charged h]
  have he : ∀ d x, Due (fun w => 10 * w.productivity) cs d x ↔ Due (·.price) cs d x := by
    intro d x
    refine exists_congr fun prices => and_congr_left fun _ => ?_
    constructor <;> intro h1 <;> refine h1.imp ?_ <;> rintro e p ⟨w, ⟨c, hc, h2, h3⟩, rfl⟩ <;> refine ⟨w, ⟨c, hc, h2, h3⟩, ?_⟩
    · exact congrArg (· * (e.2 : ℚ)) (hp c hc _ h3).symm
    · exact congrArg (· * (e.2 : ℚ)) (hp c hc _ h3)
  constructor <;> intro h1 <;> refine h1.imp fun d x hx => ?_
  · exact (he d x).1 hx
  · exact (he d x).2 hx

/-- The same contractors with other prices. -/
def reprice (price : Nat → Nat → ℚ) (cs : List Contractor) : List Contractor :=
  cs.map fun c => ⟨c.id, c.workers.map fun e => (e.1, { e.2 with price := price c.id e.1 })⟩

/-- Whatever prices the workers of contractors have, the costs of works are the same. -/
theorem prices_ignored (price : Nat → Nat → ℚ) (cs : List Contractor) (l : List Decision) : costs (reprice price cs) l = costs cs l := by
  have hp : poolOf (reprice price cs) = poolOf cs := by
    unfold poolOf reprice
    rw [List.foldl_map]
    congr 1
    funext pool c
    unfold addContractor
    rw [List.foldl_map]
    rfl
  unfold costs
  rw [hp]

/-- A copy of a worker is the worker in all but its price. -/
theorem copy_keeps (w : Worker) : w.copy = { w with price := 10 * w.productivity } := by
  show Worker.mk _ _ _ _ _ (w.productivity * 10) = _
  rw [mul_comm]
  rfl

/-- The team of a work consists of the contractor's own workers of these kinds in these numbers, unchanged but for their price, and there is one
exactly if the contractor has workers of all these kinds. -/
theorem teams (h : Sound cs) (contractor : Nat) (counts : List (Nat × Int)) (t : List Worker) :
    team (poolOf cs) contractor counts = some t ↔ List.Forall₂ (fun e w => ∃ v, Offers cs contractor e.1 v ∧
      w = { v with count := e.2, price := 10 * v.productivity }) counts t := by
  unfold team
  rw [mapM_iff]
  have he : ∀ (e : Nat × Int) (v : Worker), v.copy.copy.withCount e.2 = { v with count := e.2, price := 10 * v.productivity } := by
    intro e v
    rw [copy_keeps, copy_keeps]
    rfl
  constructor <;> intro h1 <;> refine h1.imp fun e w hw => ?_
  · obtain ⟨v, hv, rfl⟩ := (member h _ _ _ _).1 hw
    exact ⟨v, hv, he e v⟩
  · obtain ⟨v, hv, rfl⟩ := hw
    exact (member h _ _ _ _).2 ⟨v, hv, (he e v).symm⟩

/-- Whoever the workers belonged to before, all workers of a team belong to the contractor it was made for. -/
theorem teams_belong {l : List (Nat × List (Nat × Worker))} (h : Sound (l.map fun e => mkContractor e.1 e.2)) {contractor : Nat}
    {counts : List (Nat × Int)} {t : List Worker} (ht : team (poolOf (l.map fun e => mkContractor e.1 e.2)) contractor counts = some t) :
    ∀ w ∈ t, w.contractor = contractor := by
  have h1 := (teams h contractor counts t).1 ht
  clear ht
  induction h1 with
  | nil => simp
  | cons hx _ ih =>
    intro w hw
    rcases List.mem_cons.1 hw with rfl | hw
    · obtain ⟨v, ⟨c, hc, rfl, hv⟩, rfl⟩ := hx
      obtain ⟨e, -, rfl⟩ := List.mem_map.1 hc
      obtain ⟨u, -, hu⟩ := List.mem_map.1 hv
      exact (congrArg Worker.contractor (Prod.ext_iff.1 hu).2).symm
    · exact ih w hw

/-- The cost of a schedule is the sum of the costs of its works. -/
theorem total (cs : List Contractor) (l : List Decision) : totalCost cs l none = (costs cs l).map List.sum := by
  unfold totalCost costs
  simp only [List.filter_true]

/-- With names, the cost of a schedule is the cost of the schedule whose teams are only of workers with these names, if workers are called as their
contractors' entries say. -/
theorem total_named (h : Sound cs) (hn : ∀ c ∈ cs, ∀ e ∈ c.workers, e.2.name = e.1) (l : List Decision) (ns : List Nat) {x : ℚ}
    (hx : totalCost cs l (some ns) = some x) :
    totalCost cs (l.map fun d => { d with counts := d.counts.filter fun e => ns.contains e.1 }) none = some x := by
  unfold totalCost at hx ⊢
  obtain ⟨xs, hxs, rfl⟩ := Option.map_eq_some_iff.1 hx
  rw [mapM_iff] at hxs
  refine Option.map_eq_some_iff.2 ⟨xs, ?_, rfl⟩
  rw [mapM_iff, List.forall₂_map_left_iff]
  refine hxs.imp fun d y hy => ?_
  obtain ⟨t, ht, rfl⟩ := Option.map_eq_some_iff.1 hy
  refine Option.map_eq_some_iff.2 ⟨t.filter fun w => ns.contains w.name, ?_, by simp only [List.filter_true]⟩
  rw [teams h] at ht ⊢
  dsimp only at ht ⊢
  generalize d.counts = counts at ht ⊢
  clear hy
  induction ht with
  | nil => exact .nil
  | @cons e w es ws hw _ ih =>
    have hname : w.name = e.1 := by
      obtain ⟨v, ⟨c, hc, -, hv⟩, rfl⟩ := hw
      exact hn c hc _ hv
    rw [List.filter_cons, List.filter_cons, hname]
    split
    · exact .cons hw ih
    · exact ih

/-- Prices have no influence on the cost of a schedule, and so none on which of two schedules is the cheaper one. -/
theorem total_ignores (price : Nat → Nat → ℚ) (cs : List Contractor) (l : List Decision) (names : Option (List Nat)) :
    totalCost (reprice price cs) l names = totalCost cs l names := by
  have hp : poolOf (reprice price cs) = poolOf cs := by
    unfold poolOf reprice
    rw [List.foldl_map]
    congr 1
    funext pool c
    unfold addContractor
    rw [List.foldl_map]
    rfl
  unfold totalCost
  rw [hp]

/-! ### Two contractors, one of them expensive -/

private def two : List Contractor :=
  [mkContractor 0 [(3, mkWorker 0 3 5 0 none (some 100)), (4, mkWorker 1 4 2 0 (some 2) none)], mkContractor 1 [(3, mkWorker 0 3 8 0 none none)]]

private theorem sound : Sound two := ⟨by decide +kernel, by decide +kernel⟩

example : costs two [⟨0, [(3, 2), (4, 1)], 6⟩, ⟨1, [(3, 2)], 4⟩] = some [240, 80] := by decide +kernel

example : totalCost two [⟨0, [(3, 2), (4, 1)], 6⟩, ⟨1, [(3, 2)], 4⟩] (some [3]) = some 200 := by decide +kernel

example : ∀ c ∈ two, ∀ e ∈ c.workers, e.2.name = e.1 := by decide +kernel

example : (team (poolOf two) 1 [(3, 2)]).map (·.map (·.contractor)) = some [1] := by decide +kernel

example : costs [mkContractor 1 [(3, mkWorker 0 3 8 0 (some 2) none)]] [⟨1, [(3, 2)], 4⟩] = some [160] :=
  (costs_partial ⟨by decide +kernel, by decide +kernel⟩ (by decide +kernel) _ _).2
    (.cons ⟨[40], .cons ⟨_, ⟨_, List.mem_cons_self, rfl, List.mem_cons_self⟩, by decide +kernel⟩ .nil, by decide +kernel⟩ .nil)

/-- Not proved because false: the cost of a work is what the workers of its contractor cost.  Two workers of price 100 for six units of time are
charged 120 in place of 1200. -/
theorem prices_fail : ∃ (cs : List Contractor) (d : Decision) (w : Worker), Sound cs ∧ d.counts = [(w.name, 2)] ∧ d.duration = 6 ∧
    Offers cs d.contractor w.name w ∧ w.price = 100 ∧ costs cs [d] = some [120] ∧ Due (·.price) cs d 1200 :=
  ⟨two, ⟨0, [(3, 2)], 6⟩, mkWorker 0 3 5 0 none (some 100), sound, rfl, rfl, ⟨_, List.mem_cons_self, rfl, List.mem_cons_self⟩, rfl,
    by decide +kernel, [200], .cons ⟨_, ⟨_, List.mem_cons_self, rfl, List.mem_cons_self⟩, by decide +kernel⟩ .nil, by decide +kernel⟩

end Sampo.C124
