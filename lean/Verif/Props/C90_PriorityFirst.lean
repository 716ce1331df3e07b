import Verif.Lemmas.Prioritize
import Verif.Props.C20_WorkOrders
import Verif.Props.C22_HeadNodes
import Verif.Model.Scheduler
import Verif.Spec.ByPriority

/-!
# C90: works of smaller priority numbers are ordered first

The order in which a scheduler takes the works (chains of works, each represented by its first one).  `ByPriority` does not
mention groups or candidates.
-/

namespace Sampo.C90
open C20 (HeadGraph PrioritiesAgree demoPar demoChi)

variable {heads : List Nat} {par chi : Nat → List Nat} {prio : Nat → Int}
variable {α : Type} [AddCommGroup α] [LinearOrder α]

private theorem sorted_of_groups {f : List Nat → List Nat} (hf : ∀ g ∈ Priority.groups prio heads, (f g).Perm g) :
    ByPriority prio ((Priority.groups prio heads).flatMap f) := by
  have := (Priority.groups_respect (r := fun x y => prio y < prio x) hf (fun g hg => ?_)
    (fun x _ y _ h => le_of_lt h)).2
  · exact byPriority_iff.2 (List.Pairwise.imp (fun h => not_lt.1 h) this)
  · obtain ⟨p, rfl⟩ := Priority.mem_groups hg
    refine List.Pairwise.imp_of_mem (R := fun _ _ => True) ?_ (List.pairwise_of_forall fun _ _ => trivial)
    intro a b ha hb _
    have h1 := (hf _ hg).mem_iff.1 ha
    have h2 := (hf _ hg).mem_iff.1 hb
    rw [List.mem_filter] at h1 h2
    have h1 := of_decide_eq_true h1.2
    have h2 := of_decide_eq_true h2.2
    omega

/-- HEFT, for all costs and all priorities. -/
theorem heft (cost : Nat → α) (prio : Nat → Int) (par : Nat → List Nat) (heads : List Nat) :
    ByPriority prio (Heft.prioritize cost prio par heads) := by
  refine sorted_of_groups fun g _ => ?_
  unfold Heft.prioritizeNodes
  split
  · exact List.Perm.refl _
  · exact List.perm_insertionSort _ _

/-- LFT, for all durations and all priorities. -/
theorem lft (dur : Nat → Int) (prio : Nat → Int) (chi : Nat → List Nat) (heads : List Nat) :
    ByPriority prio (LFT.prioritize dur prio chi heads) :=
  sorted_of_groups fun g _ => List.perm_insertionSort _ g

private theorem mapM_flatten {sort : List Nat → Option (List Nat)} : ∀ (gs : List (List Nat)) (os : List (List Nat)),
    gs.mapM sort = some os → os.flatten = gs.flatMap (fun g => (sort g).getD g) ∧ ∀ g ∈ gs, ∃ o, sort g = some o
  | [], os, h => by
    rw [List.mapM_nil] at h
    cases h
    exact ⟨rfl, by simp⟩
  | g :: gs, os, h => by
    rw [List.mapM_cons] at h
    simp only [Option.bind_eq_bind, Option.bind_eq_some_iff, Option.pure_def, Option.some.injEq] at h
    obtain ⟨o, ho, os', hos, rfl⟩ := h
    obtain ⟨h1, h2⟩ := mapM_flatten gs os' hos
    refine ⟨by simp [h1, ho], ?_⟩
    intro g' hg'
    rcases List.mem_cons.1 hg' with rfl | h'
    · exact ⟨o, ho⟩
    · exact h2 g' h'

/-- Topological order, whatever the order inside the levels. -/
theorem topological (hn : heads.Nodup) (par : Nat → List Nat) (shuffle : List Nat → List Nat)
    (hs : ∀ l, (shuffle l).Perm l) {order : List Nat}
    (h : Topological.prioritize prio par shuffle heads = some order) : ByPriority prio order := by
  unfold Topological.prioritize at h
  rw [Option.map_eq_some_iff] at h
  obtain ⟨os, hos, rfl⟩ := h
  obtain ⟨h1, h2⟩ := mapM_flatten _ _ hos
  rw [h1]
  refine sorted_of_groups fun g hg => ?_
  obtain ⟨o, ho⟩ := h2 g hg
  rw [ho, Option.getD_some]
  rw [Option.map_eq_some_iff] at ho
  obtain ⟨levels, hl, rfl⟩ := ho
  have hnd : g.Nodup := hn.sublist (Priority.groups_sublist hg)
  have hkeys : Deps.keys (g.map fun v => (v, (par v).filter fun p => p ∈ g)) = g := by
    unfold Deps.keys
    rw [List.map_map]
    exact List.map_id _
  obtain ⟨t1, t2, -, -⟩ := toposort_some (by rw [hkeys]; exact hnd) hl
  have hall : ∀ x, x ∈ levels.flatten ↔ x ∈ g := by
    intro x
    rw [t2]
    constructor
    · rintro ⟨e, he, hx⟩
      obtain ⟨z, hz, rfl⟩ := List.mem_map.1 he
      rcases hx with rfl | hx
      · exact hz
      · rw [List.mem_filter] at hx
        simpa using hx.2
    · intro hx
      exact ⟨(x, (par x).filter fun p => p ∈ g), List.mem_map.2 ⟨x, hx, rfl⟩, Or.inl rfl⟩
  have hsh : ∀ ls : List (List Nat), (ls.flatMap shuffle).Perm ls.flatten := by
    intro ls
    induction ls with
    | nil => exact List.Perm.refl _
    | cons l ls ih =>
      rw [List.flatMap_cons, List.flatten_cons]
      exact (hs l).append ih
  exact (hsh levels).trans ((List.perm_ext_iff_of_nodup t1 hnd).2 hall)

private theorem eligible_below {h : Nat} {hs : List Nat} (hg : HeadGraph (h :: hs) par chi)
    (hp : PrioritiesAgree prio (h :: hs) par) (hsrc : ∀ v ∈ hs, par v ≠ []) {candidates order : List Nat}
    (inv : LFT.RandomInv par h (h :: hs) candidates order) : ∀ (n u : Nat), (h :: hs).idxOf u = n → u ∈ h :: hs →
      u ∉ order → ∃ v ∈ candidates, (∀ p ∈ par v, p ∈ order) ∧ prio v ≤ prio u := by
  intro n
  induction n using Nat.strong_induction_on with
  | _ n ih =>
    intro u hn hu huo
    by_cases hall : ∀ p ∈ par u, p ∈ order
    · refine ⟨u, inv.complete u hu huo ?_, hall, le_refl _⟩
      rw [List.mem_cons] at hu
      rcases hu with rfl | hu
      · exact Or.inl rfl
      · obtain ⟨p, hpm⟩ := List.exists_mem_of_ne_nil _ (hsrc u hu)
        exact Or.inr ⟨p, hpm, hall p hpm⟩
    · push Not at hall
      obtain ⟨p, hpu, hpo⟩ := hall
      have hph := hg.parents u hu p hpu
      have hlt := idxOf_lt_of_respects hg.topological hu hph (by rintro rfl; exact hg.noSelf _ hu hpu) hpu
      obtain ⟨v, h1, h2, h3⟩ := ih _ (by omega) p rfl hph hpo
      exact ⟨v, h1, h2, h3.trans (hp u hu p hpu)⟩

private theorem randomLoop_sorted {h : Nat} {hs : List Nat} (hg : HeadGraph (h :: hs) par chi)
    (hp : PrioritiesAgree prio (h :: hs) par) (hsrc : ∀ v ∈ hs, par v ≠ []) (pick : Nat → Nat) :
    ∀ (fuel : Nat) (candidates order r : List Nat), LFT.RandomInv par h (h :: hs) candidates order →
      order.Pairwise (fun v w => prio v ≤ prio w) → (∀ v ∈ order, ∀ u ∈ h :: hs, u ∉ order → prio v ≤ prio u) →
      LFT.randomLoop par chi prio pick fuel candidates order = some (some r) →
      r.Pairwise fun v w => prio v ≤ prio w
  | 0, candidates, order, r, _, ho, _, hr => by
    unfold LFT.randomLoop at hr
    split at hr
    · simp only [Option.some.injEq] at hr
      rw [← hr]
      exact ho
    · simp at hr
  | fuel + 1, candidates, order, r, inv, ho, hlow, hr => by
    unfold LFT.randomLoop at hr
    split at hr
    · simp only [Option.some.injEq] at hr
      rw [← hr]
      exact ho
    · split at hr
      · simp at hr
      · rename_i el hel
        split at hr
        · simp at hr
        · rename_i sel hsel
          obtain ⟨e1, e2⟩ := LFT.eligible_spec hel
          have hse := List.mem_of_getElem? hsel
          obtain ⟨s1, s2⟩ := e1 sel hse
          obtain ⟨c1, c2⟩ := inv.cand sel s1
          refine randomLoop_sorted hg hp hsrc pick fuel _ _ r (inv.select hg.noSelf hg.children s1 s2) ?_ ?_ hr
          · rw [List.pairwise_append]
            refine ⟨ho, by simp, ?_⟩
            intro a ha b hb
            rw [List.mem_singleton] at hb
            rw [hb]
            exact hlow a ha sel c1 c2
          · intro v hv u hu huo
            rw [List.mem_append, List.mem_singleton, not_or] at huo
            rw [List.mem_append, List.mem_singleton] at hv
            rcases hv with hv | rfl
            · exact hlow v hv u hu huo.1
            · obtain ⟨w, w1, w2, w3⟩ := eligible_below hg hp hsrc inv _ u rfl hu huo.1
              exact (e2 v hse w w1 w2).trans w3

/-- Randomized LFT, whatever is drawn, if no work has a smaller priority number than a work it depends on. -/
theorem randomized_lft (hg : HeadGraph heads par chi) (hp : PrioritiesAgree prio heads par)
    (hsrc : ∀ v ∈ heads.tail, par v ≠ []) (pick : Nat → Nat) (fuel : Nat) {order : List Nat}
    (h : LFT.prioritizeRandom par chi prio pick fuel heads = some (some order)) : ByPriority prio order := by
  unfold LFT.prioritizeRandom at h
  cases heads with
  | nil => simp at h
  | cons a as =>
    simp only [Option.map_eq_some_iff, Option.bind_eq_some_iff] at h
    obtain ⟨r, hr, sel, rfl, h⟩ := h
    split at h
    · rename_i hall
      rw [Option.some.injEq] at h
      subst h
      have inv : LFT.RandomInv par a (a :: as) [a] [] := by
        constructor
        · simp
        · simp
        · simp
        · simp
        · intro v _ _ h
          rcases h with rfl | ⟨p, -, hp⟩
          · simp
          · exact absurd hp (List.not_mem_nil)
        · simp
      have hsort := randomLoop_sorted hg hp hsrc pick fuel [a] [] sel inv List.Pairwise.nil (by simp) hr
      have hmem : ∀ v ∈ a :: as, v ∈ sel := by
        intro v hv
        have := List.all_eq_true.1 hall v hv
        simpa using this
      have hperm := List.perm_insertionSort (fun u v => sel.idxOf u ≤ sel.idxOf v) (a :: as)
      have : Std.Total (fun u v : Nat => sel.idxOf u ≤ sel.idxOf v) := ⟨fun u v => Nat.le_total _ _⟩
      have : IsTrans Nat (fun u v : Nat => sel.idxOf u ≤ sel.idxOf v) := ⟨fun _ _ _ h h' => Nat.le_trans h h'⟩
      refine byPriority_iff.2 (List.Pairwise.imp_of_mem ?_
        (List.pairwise_insertionSort (fun u v : Nat => sel.idxOf u ≤ sel.idxOf v) (a :: as)))
      intro x y hx hy hle
      rcases Nat.lt_or_ge (sel.idxOf x) (sel.idxOf y) with hlt | hge
      · exact pairwise_of_idxOf_lt hsort (hmem x (hperm.mem_iff.1 hx)) (hmem y (hperm.mem_iff.1 hy)) hlt
      · have he : x = y := (List.idxOf_inj (hmem x (hperm.mem_iff.1 hx))).1 (Nat.le_antisymm hle hge)
        rw [he]
    · simp at h

/-! ### The orders of the schedulers -/

variable {g : Graph} {nodes : List Nat}

/-- HEFT, LFT and topological schedulers take the chains of a work graph by the priorities of their first works, whatever the
priorities are. -/
theorem schedulers (hw : C22.WorkGraph g nodes) (cost : Nat → α) (dur prio : Nat → Int) (shuffle : List Nat → List Nat)
    (hs : ∀ l, (shuffle l).Perm l) (order : List Nat)
    (h : Scheduler.orderWorks (Scheduler.heftRule cost prio) g nodes = some order ∨
      Scheduler.orderWorks (Scheduler.lftRule dur prio) g nodes = some order ∨
      Scheduler.orderWorks (Scheduler.topologicalRule prio shuffle) g nodes = some order) : ByPriority prio order := by
  rcases h with h | h | h <;> simp only [Scheduler.orderWorks, Option.bind_eq_some_iff] at h <;>
    obtain ⟨⟨heads, par, chi⟩, hc, h⟩ := h
  · simp only [Scheduler.heftRule, Option.some.injEq] at h
    rw [← h]
    exact heft _ _ _ _
  · simp only [Scheduler.lftRule, Option.some.injEq] at h
    rw [← h]
    exact lft _ _ _ _
  · exact topological (C22.collapse_preserves_dependencies hw hc).1 _ _ hs h

/-- The randomized LFT scheduler too, if no chain has a smaller priority number than a chain it depends on and only one chain
depends on no other one. -/
theorem randomized_scheduler (hw : C22.WorkGraph g nodes) (prio : Nat → Int)
    (hp : ∀ a b, g.HeadDependsOn nodes a b → prio b ≤ prio a)
    (hsrc : ∃! s, g.IsHead nodes s ∧ ∀ p, ¬ g.HeadDependsOn nodes s p) (pick : Nat → Nat) (fuel : Nat) (order : List Nat)
    (h : Scheduler.orderWorks (Scheduler.randomLftRule prio pick fuel) g nodes = some order) : ByPriority prio order := by
  simp only [Scheduler.orderWorks, Option.bind_eq_some_iff, Scheduler.randomLftRule] at h
  obtain ⟨⟨heads, par, chi⟩, hc, h⟩ := h
  rw [Option.join_eq_some_iff] at h
  have hg := C22.collapse_feeds_prioritization hw hc
  obtain ⟨c1, c2, -⟩ := C22.collapse_preserves_dependencies hw hc
  have ht : ∀ a b, b ∈ (par.lookup a).getD [] ↔ g.HeadDependsOn nodes a b := fun a b => (C22.collapse_tables hw hc a b).1
  refine randomized_lft hg (fun x _ p hpx => hp x p ((ht x p).1 hpx)) ?_ pick fuel h
  intro v hv hnil
  cases heads with
  | nil => cases hv
  | cons a as =>
    rw [List.tail_cons] at hv
    obtain ⟨s, -, hu⟩ := hsrc
    have hsv : v = s := hu v ⟨(c2 v).1 (List.mem_cons_of_mem _ hv), fun p hd => by
      have := (ht v p).2 hd
      rw [hnil] at this
      cases this⟩
    have hsa : a = s := by
      refine hu a ⟨(c2 a).1 List.mem_cons_self, fun p hd => ?_⟩
      have hpm := (ht a p).2 hd
      have hph := hg.parents a List.mem_cons_self p hpm
      have hne : p ≠ a := by rintro rfl; exact hg.noSelf _ List.mem_cons_self hpm
      have := idxOf_lt_of_respects hg.topological List.mem_cons_self hph hne hpm
      rw [List.idxOf_cons_self] at this
      omega
    rw [List.nodup_cons] at c1
    rw [hsv, ← hsa] at hv
    exact c1.1 hv

/-! ### Examples -/

/-- Works 1 and 2 follow 0, 3 follows both; work 2 has the greater number. -/
def demoPrio : Nat → Int
  | 2 => 5
  | 3 => 5
  | _ => 1

example : PrioritiesAgree demoPrio [0, 1, 2, 3] demoPar := by unfold PrioritiesAgree; decide
example : Heft.prioritize (fun v => if v = 2 then (5 : Int) else 1) demoPrio demoPar [0, 1, 2, 3] = [0, 1, 2, 3] := by
  decide
example : LFT.prioritizeRandom demoPar demoChi demoPrio (fun k => k + 1) 4 [0, 1, 2, 3] = some (some [0, 1, 2, 3]) := by
  decide
example : ¬ ByPriority demoPrio [0, 2, 1, 3] := by
  intro h
  exact absurd (h [0] 2 [] 1 [3] rfl) (by decide)

/-- The condition on priorities is needed for randomized LFT (for the other schedulers it is not: they would order by priority and
against the dependency).  Work 0 has the number 5 and
precedes work 1 with the number 1: dependencies come first. -/
theorem randomized_needs_agreement :
    LFT.prioritizeRandom (fun v => if v = 1 then [0] else []) (fun v => if v = 0 then [1] else [])
      (fun v => if v = 0 then 5 else 1) (fun k => k) 2 [0, 1] = some (some [0, 1]) ∧
    ¬ ByPriority (fun v => if v = 0 then 5 else 1) [0, 1] := by
  refine ⟨by decide, fun h => ?_⟩
  exact absurd (h [] 0 [] 1 [] rfl) (by decide)

end Sampo.C90
