import Verif.Lemmas.GeneticFull
import Verif.Lemmas.GeneticDemo

/-!
# The project of `Lemmas/GeneticDemo.lean` as a task for the whole genetic scheduler
-/

namespace Sampo.GeneticFullDemo

open GeneticRun GeneticFull
open Genetic (Ind Problem)

def service (v : Nat) : Bool := v = 0 ∨ v = 4

def site : Env Unit :=
  { Demo.env with service, kinds := fun v => (GeneticDemo.reqs v).map (·.kind)
                  estimate := fun v team => if service v ∨ team = [] then 0 else min (10 * v) 40 }

def base : Decode.Input Unit where
  order := []
  chrom := ⟨fun _ _ => 0, fun _ => 0, fun _ _ => 0⟩
  node := id
  reqs := fun _ => []
  spec := fun _ => {}
  independent := fun _ => false
  assignedTime := fun _ => none
  volume := fun _ => 1
  share := Assigned.exactShare
  pool := fun _ _ => none
  kinds := 0
  parentTime := 5
  parents := fun _ => []
  matOk := fun _ _ _ => true
  zoneOk := fun _ _ _ _ => true

def task : Job Unit where
  J := GeneticDemo.J
  site := site
  env := ()
  independent _ := false
  cost v := v
  dur v := v
  index _ _ := 0
  finishEnd _ v _ l := 10 * v - l.sum
  finishBetween _ v _ l := 10 * v - l.sum
  sort := List.reverse
  first l := l.headD 0
  B := base
  inf := 1000

theorem starts (v : Nat) (hv : C22.demo.IsHead GeneticDemo.works v) (hne : v ≠ 0) : ∃ p, C22.demo.HeadDependsOn GeneticDemo.works v p := by
  have hm := ((C22.collapse_preserves_dependencies GeneticDemo.graph GeneticDemo.collapse).2.1 v).2 hv
  have key : ∀ v ∈ [0, 3, 1, 4], v ≠ 0 → ∃ p, p ∈ (List.lookup v [(0, []), (1, [0, 3]), (3, [0]), (4, [1])]).getD [] := by
    intro v hv hne
    simp only [List.mem_cons, List.not_mem_nil, or_false] at hv
    rcases hv with rfl | rfl | rfl | rfl
    · exact absurd rfl hne
    · exact ⟨0, by decide⟩
    · exact ⟨0, by decide⟩
    · exact ⟨1, by decide⟩
  obtain ⟨p, hp⟩ := key v hm hne
  exact ⟨p, ((C22.collapse_tables GeneticDemo.graph GeneticDemo.collapse v p).1).1 hp⟩

theorem follows {p v : Nat} (h : C22.demo.Follows p v) : p = 1 ∧ v = 2 := by
  have key : ∀ e ∈ GeneticDemo.edges, e.type = .inseparable → e.start = 1 ∧ e.finish = 2 := by decide
  obtain ⟨e, he, hs, ht⟩ := h
  obtain ⟨hm, hfin⟩ := GeneticDemo.edge he
  obtain ⟨h1, h2⟩ := key e hm ht
  omega

theorem inChain {k v : Nat} (h : C22.demo.InChain k v) : v = k ∨ (k = 1 ∧ v = 2) := by
  induction h with
  | refl => exact .inl rfl
  | tail _ hf ih =>
    obtain ⟨h1, h2⟩ := follows hf
    omega

theorem able : GeneticFull.Able GeneticDemo.J 2 2 where
  sound := GeneticDemo.sound
  plain := ⟨GeneticDemo.deps, fun _ _ he _ => GeneticDemo.lag he, fun v => by simp only [GeneticDemo.J]; split <;> rfl, 0, rfl, starts⟩
  bound := by decide
  lags v e he := ⟨GeneticDemo.lag he, (by decide : ∀ e ∈ GeneticDemo.edges, e.lag ≤ 2) e (GeneticDemo.edge he).1⟩
  chains k v e he h1 h2 := by
    have hm := GeneticDemo.edge he
    by_contra hl
    have key : ∀ e ∈ GeneticDemo.edges, ¬ e.lag ≤ 0 → e.finish = 3 ∧ e.start = 0 := by decide
    have := key e hm.1 hl
    have := inChain h1
    have := inChain h2
    omega
  alike k v h := by
    rcases inChain h with rfl | ⟨rfl, rfl⟩
    · exact ⟨rfl, rfl⟩
    · exact ⟨rfl, rfl⟩
  able v := by
    obtain ⟨-, -, -, c, hc, ha, hab⟩ := GeneticDemo.staff v
    exact ⟨c, hc, ha, fun r hr => by obtain ⟨n, h1, h2, -⟩ := hab r hr; exact ⟨n, h1, h2⟩⟩
  source := by
    refine ⟨0, ⟨((C22.collapse_preserves_dependencies GeneticDemo.graph GeneticDemo.collapse).2.1 0).1 (by decide), fun p hp => ?_⟩, fun v hv => ?_⟩
    · have := ((C22.collapse_tables GeneticDemo.graph GeneticDemo.collapse 0 p).1).2 hp
      simp at this
    · by_contra hne
      obtain ⟨p, hp⟩ := starts v hv.1 hne
      exact hv.2 p hp

theorem ready : Ready task 2 2 40 where
  project := able
  site := {
    bound := by decide
    durations := fun v team => by simp only [task, site]; split <;> omega
    service := fun v hv => by
      simp only [task, site] at hv ⊢
      refine ⟨?_, fun team => by simp [hv]⟩
      simp only [service, decide_eq_true_eq] at hv
      rcases hv with rfl | rfl <;> rfl
    kinds := fun _ => rfl
    limits := ⟨fun _ _ _ => Int.le_refl _, fun _ _ _ _ => Int.le_refl _, fun s _ t => ⟨s, t, rfl, Int.le_refl _⟩, fun s _ _ _ => ⟨s, rfl⟩,
      fun s => ⟨s, 0, rfl, Int.le_refl _⟩⟩
    early := fun _ _ _ _ h => ⟨h, h⟩
    allowed := fun _ _ _ _ => ⟨rfl, rfl⟩
    steady := {
      estimate := fun v team => by simp only [task, site]; split <;> omega
      volume := fun _ => Int.zero_le_ofNat 1
      share := C13.exactShare_fair
      assigned := fun v t h => by simp [task, base] at h
      start := by decide
      independent := fun _ => rfl }
    given := fun v t h => by simp [task, base] at h }
  cost v := Nat.cast_nonneg v
  dur v := Int.natCast_nonneg v
  index _ _ h := h
  sort sw := List.reverse_perm sw
  first l hl := by cases l <;> simp_all [task]
  half := by decide
  late := by decide
  room := by decide

def draws : Draws where
  pick _ _ := 1
  index _ _ n := n - 1
  shuffle _ l := l.reverse
  kinds := [0, 1, 2, 3, 4, 5, 6, 7, 8]

theorem draws_possible : draws.Possible := ⟨fun _ _ n hn => by simp only [draws]; omega, fun _ l => List.reverse_perm l⟩

def still : Randomness where
  shuffle _ l := l.reverse
  mate _ _ := ⟨fun i => ((3 * (i / 4), 2), (3 * (i / 4), 2)), [1]⟩
  mutation _ _ := ⟨fun _ _ => true, fun _ _ l => l.getLastD 0, fun _ _ => [], fun _ _ l => l.getLast?, fun _ => false, fun _ => 0,
    fun w _ => w == 1, fun _ _ l => l.getLastD 0⟩
  inTime _ := true

theorem picks : GeneticRes.Picks fun _ _ l => l.getLastD 0 := by
  intro _ _ l hl
  show l.getLastD 0 ∈ l
  rw [List.getLastD_eq_getLast?, List.getLast?_eq_some_getLast hl]
  exact List.getLast_mem hl

theorem still_possible (P : Problem) : still.Possible P where
  shuffle _ l := List.reverse_perm l
  draws g := by
    refine ⟨fun j i => by simp only [still, Genetic.Draw]; omega, fun j => ⟨picks, fun i n => ?_, fun w _ h => by simp [still] at h, picks⟩⟩
    exact ⟨by simp [still], by simp [still], fun k l hl => ⟨l.getLast hl, List.getLast_mem hl, List.getLast?_eq_some_getLast hl⟩⟩

end Sampo.GeneticFullDemo
