import Verif.Spec.GeneticSite

/-! Specification: a project that has enough time. -/

namespace Sampo.GeneticRun

variable {σ : Type}

/-- There is time for the project before `inf`: materials and zones do not delay works, lags are at most `g`, no work takes a team that
serves some work longer than `d`, neither do given times, and `2 * g + d + 1` for each work after the start is still before `inf`. -/
structure Roomy (J : Project) (site : Env σ) (B : Decode.Input σ) (g d inf : Int) : Prop where
  limits : NoSiteLimits site
  allowed : ∀ s v t x, B.matOk s v t = true ∧ B.zoneOk s v t x = true
  lag0 : 0 ≤ g
  lags : ∀ v, ∀ e ∈ J.graph.edgesTo v, e.lag ≤ g
  time0 : 0 ≤ d
  times : ∀ u ∈ J.nodes, ∀ v ∈ J.nodes, ∀ team cid, Serves J v team cid → site.estimate u team ≤ d
  given : ∀ v t, B.assignedTime v = some t → t ≤ d
  room : B.parentTime + J.nodes.length * (2 * g + d + 1) < inf

end Sampo.GeneticRun
