import Verif.Model.GeneticFull
import Verif.Props.C92_GeneticScheduler

/-! Specification: projects, sites and settings for which the whole genetic scheduler is examined. -/

namespace Sampo.GeneticFull

open GeneticRun

variable {σ : Type}

/-- The project can be scheduled: lags are between 0 and `L`, and 0 inside chains; the works of a chain ask for the same workers and contractors;
each work has an enabled contractor with enough workers; one chain depends on no other one. -/
structure Able (J : Project) (m : Nat) (L : Int) : Prop where
  sound : Sound J m
  plain : C92.Plain J
  bound : 0 ≤ L
  lags : ∀ v, ∀ e ∈ J.graph.edgesTo v, 0 ≤ e.lag ∧ e.lag ≤ L
  chains : ∀ k v, ∀ e ∈ J.graph.edgesTo v, J.graph.InChain k v → J.graph.InChain k e.start → e.lag ≤ 0
  alike : ∀ k v, J.graph.InChain k v → J.reqs v = J.reqs k ∧ (J.spec v).contractors = (J.spec k).contractors
  able : ∀ v, ∃ c ∈ J.contractors, C14.Admissible (J.spec v) c ∧ Generic.Able c (J.reqs v)
  source : ∃! s, J.graph.IsHead J.nodes s ∧ ∀ p, ¬ J.graph.HeadDependsOn J.nodes s p

/-- The site: works take between 0 and `D`, service works need no workers and take no time, materials and zones do not delay works. -/
structure Open (J : Project) (site : Env σ) (B : Decode.Input σ) (D : Int) : Prop where
  bound : 0 ≤ D
  durations : ∀ v team, 0 ≤ site.estimate v team ∧ site.estimate v team ≤ D
  service : ∀ v, site.service v = true → J.reqs v = [] ∧ ∀ team, site.estimate v team = 0
  kinds : ∀ v, site.kinds v = (J.reqs v).map (·.kind)
  limits : NoSiteLimits site
  early : ∀ s v t d, 0 ≤ t → 0 ≤ site.matTime s v t ∧ 0 ≤ site.zoneTime s v t d
  allowed : ∀ s v t x, B.matOk s v t = true ∧ B.zoneOk s v t x = true
  steady : Steady site B
  given : ∀ v t, B.assignedTime v = some t → t ≤ D

/-- The whole task: moreover weights and durations are not negative, and there is enough time. -/
structure Ready (T : Job σ) (m : Nat) (L D : Int) : Prop where
  project : Able T.J m L
  site : Open T.J T.site T.B D
  cost : ∀ v, 0 ≤ T.cost v
  dur : ∀ v, 0 ≤ T.dur v
  index : ∀ v n, 0 < n → T.index v n < n
  sort : ∀ sw, (T.sort sw).Perm sw
  first : ∀ l, l ≠ [] → T.first l ∈ l
  half : 2 * (T.J.nodes.length * (L + D)) < TIME_INF
  late : T.J.nodes.length * (L + D) + L ≤ T.inf
  room : T.B.parentTime + T.J.nodes.length * (2 * L + D + 1) < T.inf

/-- Service works are not parts of inseparable chains, and the specification gives them no time. -/
structure ServiceApart (T : Job σ) : Prop where
  apart : ∀ v u, T.site.service v = true → ¬ T.J.graph.Follows v u ∧ ¬ T.J.graph.Follows u v
  times : ∀ v t, T.site.service v = true → T.B.assignedTime v = some t → t = 0

/-- Draws that can occur: contractors among the possible ones, shuffles of what is shuffled. -/
structure Draws.Possible (d : Draws) : Prop where
  index : ∀ i v n, 0 < n → d.index i v n < n
  shuffle : ∀ i l, (d.shuffle i l).Perm l

end Sampo.GeneticFull
