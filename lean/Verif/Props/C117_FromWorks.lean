import Verif.Model.Build
import Verif.Spec.Build
import Verif.Props.C32_FromNodes
import Verif.Props.C45_Check
import Verif.Props.C116_Finished

/-!
# C117: from a list of works to the table of a valid schedule
-/

namespace Sampo.C117
open PlainPipeline Finished Sampo.Scheduler
open Pipeline hiding Feasible Scheduler
open C89 (GoodOrder Staffs)
open C116 (Tabular)

variable {σ : Type} {g : Graph} {start finish : Nat} {nodes : List Nat} {reqs : Nat → List WorkerReq} {prio : Nat → Int}

private theorem input (h : SoundWorks g start finish nodes reqs) : C32.Input g start finish nodes :=
  ⟨h.once, h.linked, h.new.1, h.new.2.1, h.new.2.2, ⟨(h.only _ h.new.1).1, (h.only _ h.new.1).2.1⟩,
    ⟨(h.only _ h.new.2.1).1, (h.only _ h.new.2.1).2.1⟩⟩

private theorem depends (hd : C89.OnlyDependencies g) {p v : Nat} : g.Before p v ↔ g.DependsOn v p :=
  ⟨fun ⟨e, he, hs⟩ => ⟨e, he, hs, hd v e he⟩, fun ⟨e, he, hs, _⟩ => ⟨e, he, hs⟩⟩

private theorem cycle_free (hd : C89.OnlyDependencies g) (ha : Acyclic g.DependsOn) (v : Nat) : ¬ Relation.TransGen g.Before v v := by
  intro h
  refine ha v (Relation.transGen_swap.1 ?_)
  exact Relation.TransGen.lift (p := fun a b => g.DependsOn b a) id (fun a b hab => (depends hd).1 hab) _ _ h

/-- What is built: from works that a user may give, a project for the pipeline is built as soon as the traversal may take
`(1 + number of edges)²` rounds: its works are the given ones and the two new ones, each once, its dependencies are the given ones and those
of works without predecessors on the start and of the finish on works without successors, its inseparable chains are the given ones. -/
theorem builds (h : SoundWorks g start finish nodes reqs) {I : Details}
    (hI : ∀ v ∈ start :: finish :: nodes, ∀ w ∈ start :: finish :: nodes, (I.model v).length = (I.model w).length) :
    ∃ p N, (∀ fuel, N ≤ fuel → build g start finish nodes reqs prio fuel = some (some p)) ∧ SoundProject p ∧ Tabular I p ∧
      p.works.Perm (start :: finish :: nodes) ∧ p.reqs = reqs ∧ p.prio = prio ∧
      (∀ v q, p.graph.DependsOn v q ↔ g.DependsOn v q ∨ (q = start ∧ v ∈ nodes ∧ ∀ r, ¬ g.DependsOn v r) ∨
        (v = finish ∧ q ∈ nodes ∧ ∀ c, ¬ g.DependsOn c q)) ∧
      (∀ v q, p.graph.Follows q v ↔ g.Follows q v) ∧
      (∀ v, ∀ e ∈ p.graph.edgesTo v, e ∈ g.edgesTo v ∨ e.lag = 0) := by
  have hi := input h
  obtain ⟨g', hg, hp, hr⟩ := C32.project hi h.some h.closed fun v _ => cycle_free h.deps h.acyclic v
  obtain ⟨new, -, hm, ht, hf, hl⟩ := C32.exact_edges hi hg
  have inv : ∀ v, ∀ e ∈ g'.edgesTo v, e ∈ g.edgesTo v ∨ (e.lag = 0 ∧ e.type = .finishStart ∧
      ((e.start = start ∧ v ∈ nodes ∧ ∀ r, ¬ g.DependsOn v r) ∨ (v = finish ∧ e.start ∈ nodes ∧ ∀ c, ¬ g.DependsOn c e.start))) := by
    intro v e he
    rw [ht, List.mem_append, List.mem_filter] at he
    rcases he with he | ⟨he, hv⟩
    · exact .inl he
    · have hv : e.finish = v := by simpa using hv
      rcases (hm e).1 he with ⟨w, hw, hn, rfl⟩ | ⟨w, hw, hn, rfl⟩
      · exact .inr ⟨rfl, rfl, .inl ⟨rfl, hv ▸ hw, fun r => hv ▸ hn r⟩⟩
      · exact .inr ⟨rfl, rfl, .inr ⟨hv.symm, hw, hn⟩⟩
  have old : ∀ v, ∀ e ∈ g.edgesTo v, e ∈ g'.edgesTo v := fun v e he => by
    rw [ht]; exact List.mem_append_left _ he
  have fol : ∀ v q, g'.Follows q v ↔ g.Follows q v := by
    intro v q
    constructor
    · rintro ⟨e, he, hs, hty⟩
      rcases inv v e he with h1 | ⟨-, h1, -⟩
      · exact ⟨e, h1, hs, hty⟩
      · rw [hty] at h1; simp at h1
    · rintro ⟨e, he, hs, hty⟩
      exact ⟨e, old v e he, hs, hty⟩
  have dep : ∀ v q, g'.DependsOn v q ↔ g.DependsOn v q ∨ (q = start ∧ v ∈ nodes ∧ ∀ r, ¬ g.DependsOn v r) ∨
      (v = finish ∧ q ∈ nodes ∧ ∀ c, ¬ g.DependsOn c q) := by
    intro v q
    constructor
    · rintro ⟨e, he, rfl, hty⟩
      rcases inv v e he with h1 | ⟨-, -, h1⟩
      · exact .inl ⟨e, h1, rfl, hty⟩
      · exact .inr h1
    · rintro (⟨e, he, hs, hty⟩ | ⟨rfl, hv, hn⟩ | ⟨rfl, hq, hn⟩)
      · exact ⟨e, old v e he, hs, hty⟩
      · refine ⟨⟨q, v, 0, .finishStart⟩, ?_, rfl, .inl rfl⟩
        rw [ht, List.mem_append, List.mem_filter]
        exact .inr ⟨(hm _).2 (.inl ⟨v, hv, hn, rfl⟩), by simp⟩
      · refine ⟨⟨q, v, 0, .finishStart⟩, ?_, rfl, .inl rfl⟩
        rw [ht, List.mem_append, List.mem_filter]
        exact .inr ⟨(hm _).2 (.inr ⟨q, hq, hn, rfl⟩), by simp⟩
  have only : C89.OnlyDependencies g' := by
    intro v e he
    rcases inv v e he with h1 | ⟨-, h1, -⟩
    · exact h.deps v e h1
    · exact .inl h1
  obtain ⟨order, ho, hperm⟩ := C33.ends hp (le_refl _)
  have hmem : ∀ v, v ∈ order ↔ v ∈ start :: finish :: nodes := fun v => hperm.mem_iff
  have acyc : Acyclic g'.DependsOn := by
    intro x hx
    have hb : Relation.TransGen g'.Before x x :=
      Relation.TransGen.lift id (fun a b hab => (depends only).2 hab) _ _ (Relation.transGen_swap.1 hx)
    by_cases hxn : x ∈ start :: finish :: nodes
    · exact hp.acyclic x hxn hb
    · obtain ⟨c, -, e, he, -⟩ := Relation.TransGen.tail'_iff.1 hb
      have h1 : x ∉ nodes := fun hh => hxn (List.mem_cons_of_mem _ (List.mem_cons_of_mem _ hh))
      rcases inv x e he with h2 | ⟨-, -, ⟨-, h2, -⟩ | ⟨h2, -⟩⟩
      · rw [(h.only x h1).1] at h2; simp at h2
      · exact h1 h2
      · exact hxn (by rw [h2]; simp)
  refine ⟨⟨g', order, reqs, prio⟩, (1 + ((start :: finish :: nodes).map fun v => (g'.edgesFrom v).length).sum) ^ 2, ?_, ?_, ?_, hperm, rfl,
    rfl, dep, fol, fun v e he => (inv v e he).imp id And.left⟩
  · intro fuel hfu
    obtain ⟨order', ho', -⟩ := C33.ends hp hfu
    have : order' = order := by
      have hm := Graph.traverseLoop_mono _ _ _ _ ho (fuel - (1 + ((start :: finish :: nodes).map fun v => (g'.edgesFrom v).length).sum) ^ 2)
      rw [Nat.add_sub_cancel' hfu] at hm
      exact Option.some.inj (ho'.symm.trans hm)
    unfold build
    rw [hg]
    dsimp only
    rw [ho', this]
    rfl
  · refine ⟨⟨hperm.nodup_iff.2 hp.once, hl, ?_, ?_, acyc⟩, only, ?_, .inl ?_, ?_, ?_⟩
    · intro v hv
      have := hp.closed v ((hmem v).1 hv)
      exact ⟨fun e he => (hmem _).2 (this.1 e he), fun e he => (hmem _).2 (this.2 e he)⟩
    · exact ⟨fun a b v h1 h2 => h.chains.oneParent a b v ((fol _ _).1 h1) ((fol _ _).1 h2),
        fun a v w h1 h2 => h.chains.oneSon a v w ((fol _ _).1 h1) ((fol _ _).1 h2)⟩
    · intro h0
      change order = [] at h0
      have := (hmem start).2 List.mem_cons_self
      rw [h0] at this
      simp at this
    · intro v q r hfo hde
      rw [fol] at hfo
      rcases (dep v r).1 hde with h1 | ⟨-, -, h1⟩ | ⟨h1, -⟩
      · exact h.entered v q r hfo h1
      · obtain ⟨e, he, hs, hty⟩ := hfo
        exact absurd ⟨e, he, hs, .inr (.inr hty)⟩ (h1 q)
      · obtain ⟨e, he, -, -⟩ := hfo
        rw [h1, (h.only _ h.new.2.1).1] at he
        simp at he
    · intro v
      by_cases hv : v ∈ nodes
      · exact h.reqs v hv
      · change C16.SoundReqs (reqs v) ∧ _
        rw [(h.only v hv).2.2]
        simp [C16.SoundReqs, (h.only v hv).2.2]
    · intro v hv
      exact (h.only v fun hh => hv ((hmem v).2 (List.mem_cons_of_mem _ (List.mem_cons_of_mem _ hh)))).2.2
  · refine ⟨?_, ⟨finish, (hmem _).2 (by simp), ?_⟩, fun v hv w hw => hI v ((hmem v).1 hv) w ((hmem w).1 hw)⟩
    · intro v e he
      rcases inv v e he with h1 | ⟨h1, -⟩
      · exact h.lags v e h1
      · exact h1.ge
    · intro v hv
      have h1 := hr v ((hmem v).1 hv)
      clear hv
      unfold Graph.Reaches at h1
      induction h1 using Relation.ReflTransGen.head_induction_on with
      | refl => exact .refl
      | head hab hbc ih =>
        refine .head ⟨?_, (depends only).1 hab⟩ ih
        rcases Relation.ReflTransGen.cases_head hbc with h2 | ⟨c, hc, -⟩
        · rw [h2]; exact (hmem _).2 (by simp)
        · rename_i a b
          by_contra hb
          have hb' : b ∉ start :: finish :: nodes := fun hh => hb ((hmem b).2 hh)
          obtain ⟨e, he, -⟩ := hab
          have h1 : b ∉ nodes := fun hh => hb' (List.mem_cons_of_mem _ (List.mem_cons_of_mem _ hh))
          rcases inv b e he with h2 | ⟨-, -, ⟨-, h2, -⟩ | ⟨h2, -⟩⟩
          · rw [(h.only b h1).1] at h2; simp at h2
          · exact h1 h2
          · exact hb' (by rw [h2]; simp)

private theorem chain_same {a b : Graph} (h : ∀ v q, a.Follows q v ↔ b.Follows q v) {k v : Nat} (hk : a.InChain k v) : b.InChain k v :=
  Relation.ReflTransGen.lift id (fun x y hxy => (h y x).1 hxy) _ _ hk

private theorem accepted {p : PlainPipeline.Project} {cs : List Contractor} (h : SoundWorks g start finish nodes reqs)
    (hr : p.reqs = reqs)
    (hentry : ∀ c ∈ cs, ∀ v ∈ nodes, ∀ r ∈ reqs v, ∃ n, c.workers.lookup r.kind = some n) (hdone : ∀ v ∈ nodes, CanBeDone cs (reqs v)) :
    canPerformGraph cs (p.works.map p.reqs) = some true := by
  have key : ∀ v ∈ p.works, v ∈ nodes ∨ reqs v = [] := fun v _ => by
    by_cases hv : v ∈ nodes
    · exact .inl hv
    · exact .inr (h.only v hv).2.2
  refine (C45.accepted_iff_partial ?_).1.2 ?_
  · intro c hc l hl r hrl
    obtain ⟨v, hv, rfl⟩ := List.mem_map.1 hl
    rw [hr] at hrl
    rcases key v hv with h1 | h1
    · exact hentry c hc v h1 r hrl
    · rw [h1] at hrl; simp at hrl
  · intro l hl
    obtain ⟨v, hv, rfl⟩ := List.mem_map.1 hl
    rw [hr]
    rcases key v hv with h1 | h1
    · exact hdone v h1
    · obtain ⟨w, hw⟩ := List.exists_mem_of_ne_nil _ h.some
      obtain ⟨c, hc, -⟩ := hdone w hw
      exact ⟨c, hc, by rw [h1]; intro r hr; simp at hr⟩

variable {I : Details} {iter : List Nat → List Nat} {cs : List Contractor} {restructure : Graph → Bool → Option Graph} {lag : Lag}

/-- HEFT with a list of contractors some of whom can do each work: the project is built, the contractors are accepted, and `finish` returns
one project with a table that shows a valid schedule of all works. -/
theorem heft_from_works (h : SoundWorks g start finish nodes reqs)
    (hI : ∀ v ∈ start :: finish :: nodes, ∀ w ∈ start :: finish :: nodes, (I.model v).length = (I.model w).length)
    (hit : ∀ l, (iter l).Perm l) (hlag : lag ≠ .auto) (hcs : C16.SoundContractors cs)
    (hentry : ∀ c ∈ cs, ∀ v ∈ nodes, ∀ r ∈ reqs v, ∃ n, c.workers.lookup r.kind = some n) (hdone : ∀ v ∈ nodes, CanBeDone cs (reqs v))
    (S : Settings σ) (hsite : NoSiteLimits S.site) (hsite0 : ∀ s v t d, 0 ≤ t → 0 ≤ S.site.matTime s v t ∧ 0 ≤ S.site.zoneTime s v t d)
    (hP : 0 ≤ S.parentTime) (L D : Int) (hL : 0 ≤ L) (hD : 0 ≤ D) (hest : ∀ v team, 0 ≤ S.site.estimate v team ∧ S.site.estimate v team ≤ D)
    (hlags : ∀ v, ∀ e ∈ g.edgesTo v, e.lag ≤ L) (hhor : 2 * (S.parentTime + (nodes.length + 2 : Nat) * (L + D)) < TIME_INF)
    (cost : Nat → ℚ) (hcost : ∀ v, 0 ≤ cost v)
    (opt : JIT.State σ → Nat → Contractor → Optimizer) (hopt : ∀ st v c, StaysWithin (opt st v c) ∧ Answers (opt st v c)) :
    ∃ p N s, p.works.Perm (start :: finish :: nodes) ∧
      Feasible p.graph p.works (LFT.agents cs) (Staffs cs (fun _ => ⟨[], []⟩) reqs) s ∧
      ∀ fuel, N ≤ fuel → build g start finish nodes reqs prio fuel = some (some p) ∧
        ∃ c t, run restructure p (.list cs) lag (heft S cost opt [] fuel p) = .done cs c ∧
          projects I iter fuel c = some [t] ∧ Presents I p.graph p.works s t := by
  obtain ⟨p, N, hb, hp, hT, hw, hr, -, -, -, he⟩ := builds (prio := prio) h hI
  have hlen : p.works.length = nodes.length + 2 := by rw [hw.length_eq]; rfl
  obtain ⟨s, h1, h2⟩ := C116.heft_finishes (restructure := restructure) (given := .list cs) hp hT hit hlag S hsite hsite0 hP L D hL hD hest
    (fun v e hev => (he v e hev).elim (hlags v e) fun h0 => by rw [h0]; exact hL) (by rw [hlen]; exact hhor) rfl hcs
    (accepted h hr hentry hdone) cost hcost opt hopt [] (fun o ho => by simp at ho)
  rw [hr] at h1
  exact ⟨p, max N (nodes.length + 2), s, hw, h1, fun fuel hf => ⟨hb fuel (by omega), h2 fuel fuel (by omega) (by omega)⟩⟩

/-- LFT: the same. -/
theorem lft_from_works (h : SoundWorks g start finish nodes reqs)
    (hI : ∀ v ∈ start :: finish :: nodes, ∀ w ∈ start :: finish :: nodes, (I.model v).length = (I.model w).length)
    (hit : ∀ l, (iter l).Perm l) (hlag : lag ≠ .auto) (hcs : C16.SoundContractors cs)
    (hentry : ∀ c ∈ cs, ∀ v ∈ nodes, ∀ r ∈ reqs v, ∃ n, c.workers.lookup r.kind = some n) (hdone : ∀ v ∈ nodes, CanBeDone cs (reqs v))
    (S : Settings σ) (hsite : NoSiteLimits S.site) (hP : 0 ≤ S.parentTime) (nobody : Nat)
    (L D inf : Int) (hL : 0 ≤ L) (hD : 0 ≤ D) (hest : ∀ v team, 0 ≤ S.site.estimate v team ∧ S.site.estimate v team ≤ D)
    (hlags : ∀ v, ∀ e ∈ g.edgesTo v, e.lag ≤ L) (hchlag : ∀ k v, ∀ e ∈ g.edgesTo v, g.InChain k v → g.InChain k e.start → e.lag ≤ 0)
    (hhor : S.parentTime + (nodes.length + 2 : Nat) * (L + D) + L ≤ inf)
    (hkinds : ∀ v, S.site.kinds v = (reqs v).map (·.kind)) (hserv : ∀ v, reqs v ≠ [] → S.site.service v = false)
    (hsame : ∀ k v, g.InChain k v → S.site.kinds v = S.site.kinds k ∨ S.site.kinds v = []) :
    ∃ p N s, p.works.Perm (start :: finish :: nodes) ∧
      Feasible p.graph p.works (LFT.agents cs) (Staffs cs (fun _ => ⟨[], []⟩) reqs) s ∧
      ∀ fuel, N ≤ fuel → build g start finish nodes reqs prio fuel = some (some p) ∧
        ∃ c t, run restructure p (.list cs) lag (lft S nobody inf fuel fuel p) = .done cs c ∧
          projects I iter fuel c = some [t] ∧ Presents I p.graph p.works s t := by
  obtain ⟨p, N, hb, hp, hT, hw, hr, -, -, hfo, he⟩ := builds (prio := prio) h hI
  have hlen : p.works.length = nodes.length + 2 := by rw [hw.length_eq]; rfl
  obtain ⟨M, s, h1, h2⟩ := C116.lft_finishes (restructure := restructure) (given := .list cs) hp hT hit
    (fun k v e hev h1 h2 => (he v e hev).elim (fun hv => hchlag k v e hv (chain_same hfo h1) (chain_same hfo h2)) fun h0 => h0.le)
    hlag S hsite hP nobody L D inf hL hD hest
    (fun v e hev => (he v e hev).elim (hlags v e) fun h0 => by rw [h0]; exact hL) (by rw [hlen]; exact hhor) (by rw [hr]; exact hkinds)
    (by rw [hr]; exact hserv) (fun k v hk => hsame k v (chain_same hfo hk)) rfl hcs (accepted h hr hentry hdone)
  rw [hr] at h1
  exact ⟨p, max (max N M) (nodes.length + 2), s, hw, h1, fun fuel hf =>
    ⟨hb fuel (by omega), h2 fuel fuel fuel (by omega) (by omega) (by omega)⟩⟩

/-! ### The genetic scheduler -/

/-- What the genetic scheduler needs beside the works: contractors with entries for all kinds of workers, one of whom can do each work, equal
requirements inside chains, lags up to `L` and none inside chains, a site as in `GeneticFull.Open` and enough time. -/
structure Equipped (T : GeneticFull.Job σ) (g : Graph) (nodes : List Nat) (reqs : Nat → List WorkerReq) (cs : List Contractor) (m : Nat)
    (L D : Int) : Prop where
  contractors : Numbered cs m
  kinds : ∀ v ∈ nodes, ∀ r ∈ reqs v, r.kind < m
  done : ∀ v ∈ nodes, CanBeDone cs (reqs v)
  alike : ∀ k v, g.InChain k v → reqs v = reqs k
  bound : 0 ≤ L
  lags : ∀ v, ∀ e ∈ g.edgesTo v, e.lag ≤ L
  chains : ∀ k v, ∀ e ∈ g.edgesTo v, g.InChain k v → g.InChain k e.start → e.lag ≤ 0
  site : GeneticFull.Open ⟨g, nodes, cs, reqs, fun _ => 0, fun _ => ⟨[], []⟩⟩ T.site T.B D
  cost : ∀ v, 0 ≤ T.cost v
  dur : ∀ v, 0 ≤ T.dur v
  index : ∀ v n, 0 < n → T.index v n < n
  sort : ∀ sw, (T.sort sw).Perm sw
  first : ∀ l, l ≠ [] → T.first l ∈ l
  half : 2 * ((nodes.length + 2 : Nat) * (L + D)) < TIME_INF
  late : (nodes.length + 2 : Nat) * (L + D) + L ≤ T.inf
  room : T.B.parentTime + (nodes.length + 2 : Nat) * (2 * L + D + 1) < T.inf

private theorem ready {T : GeneticFull.Job σ} {p : PlainPipeline.Project} {m : Nat} {L D : Int} (h : SoundWorks g start finish nodes reqs)
    (hE : Equipped T g nodes reqs cs m L D) (hp : SoundProject p) (hT : Tabular I p) (hw : p.works.Perm (start :: finish :: nodes))
    (hr : p.reqs = reqs)
    (dep : ∀ v q, p.graph.DependsOn v q ↔ g.DependsOn v q ∨ (q = start ∧ v ∈ nodes ∧ ∀ r, ¬ g.DependsOn v r) ∨
        (v = finish ∧ q ∈ nodes ∧ ∀ c, ¬ g.DependsOn c q))
    (fol : ∀ v q, p.graph.Follows q v ↔ g.Follows q v) (he : ∀ v, ∀ e ∈ p.graph.edgesTo v, e ∈ g.edgesTo v ∨ e.lag = 0) :
    GeneticFull.Ready (GeneticPipeline.given T p (fun _ => 0) cs) m L D := by
  have hlen : p.works.length = nodes.length + 2 := by rw [hw.length_eq]; rfl
  have hmem : ∀ v, v ∈ p.works ↔ v = start ∨ v = finish ∨ v ∈ nodes := fun v => by rw [hw.mem_iff, List.mem_cons, List.mem_cons]
  have new : ∀ v, v ∉ nodes → (∀ q, ¬ g.DependsOn v q) ∧ (∀ c, ¬ g.DependsOn c v) := by
    intro v hv
    refine ⟨fun q ⟨e, h1, _⟩ => ?_, fun c ⟨e, h1, h2, _⟩ => ?_⟩
    · rw [(h.only v hv).1] at h1; simp at h1
    · have hf := h.linked.finish c e h1
      have h3 := (h.linked.both e).1 (by rw [hf]; exact h1)
      rw [h2, (h.only v hv).2.1] at h3
      simp at h3
  have fdep : ∀ v q, g.Follows q v → g.DependsOn v q := fun v q ⟨e, h1, h2, h3⟩ => ⟨e, h1, h2, .inr (.inr h3)⟩
  have pfdep : ∀ v q, p.graph.Follows q v → p.graph.DependsOn v q := fun v q ⟨e, h1, h2, h3⟩ => ⟨e, h1, h2, .inr (.inr h3)⟩
  have hasDep : ∀ v ∈ p.works, v ≠ start → ∃ q, p.graph.DependsOn v q := by
    intro v hv hne
    rcases (hmem v).1 hv with h1 | h1 | h1
    · exact absurd h1 hne
    · subst h1
      obtain ⟨final, h2, h3⟩ := hT.finish
      by_cases hf : final = v
      · subst hf
        obtain ⟨w, hw'⟩ := List.exists_mem_of_ne_nil _ h.some
        rcases Relation.ReflTransGen.cases_tail (h3 w ((hmem w).2 (.inr (.inr hw')))) with h4 | ⟨q, -, h4⟩
        · exact absurd (h4 ▸ hw') h.new.2.1
        · exact ⟨q, h4.2⟩
      · rcases Relation.ReflTransGen.cases_head (h3 v hv) with h4 | ⟨u, ⟨-, h4⟩, -⟩
        · exact absurd h4.symm hf
        · rcases (dep u v).1 h4 with h5 | ⟨h5, -⟩ | ⟨-, h5, -⟩
          · exact absurd h5 ((new v h.new.2.1).2 u)
          · exact absurd h5 hne
          · exact absurd h5 h.new.2.1
    · by_cases hd : ∃ r, g.DependsOn v r
      · obtain ⟨r, hr'⟩ := hd
        exact ⟨r, (dep v r).2 (.inl hr')⟩
      · exact ⟨start, (dep v start).2 (.inr (.inl ⟨rfl, h1, fun r hr' => hd ⟨r, hr'⟩⟩))⟩
  have up : ∀ a b, p.graph.InChain a b → Relation.ReflTransGen p.graph.DependsOn b a := by
    intro a b hab
    unfold Graph.InChain at hab
    induction hab with
    | refl => exact .refl
    | tail _ hf ih => exact .head (pfdep _ _ hf) ih
  have nofollow : ∀ x, ¬ Relation.TransGen p.graph.Follows x x := by
    intro x hx
    refine hp.graph.acyclic x (Relation.transGen_swap.1 ?_)
    exact Relation.TransGen.lift (p := fun a b => p.graph.DependsOn b a) id (fun a b hab => pfdep b a hab) _ _ hx
  have heads : ∀ v, p.graph.IsHead p.works v → v ≠ start → ∃ q, p.graph.HeadDependsOn p.works v q := by
    intro v hv hne
    obtain ⟨q, hq⟩ := hasDep v hv.1 hne
    have hqm : q ∈ p.works := by
      obtain ⟨e, h1, h2, -⟩ := hq
      rw [← h2]
      exact (hp.graph.closed v hv.1).1 e h1
    obtain ⟨k, hk, hc⟩ := Graph.exists_head hp.graph.closed (fun x _ => nofollow x) hqm
    refine ⟨k, hv, hk, ?_, v, q, .refl, hc, hq⟩
    rintro rfl
    exact hp.graph.acyclic k (Relation.TransGen.head' hq (up _ _ hc))
  have startDep : ∀ q, ¬ p.graph.DependsOn start q := by
    intro q hq
    rcases (dep start q).1 hq with h1 | ⟨-, h1, -⟩ | ⟨h1, -⟩
    · exact (new start h.new.1).1 q h1
    · exact h.new.1 h1
    · exact h.new.2.2 h1
  have startHead : p.graph.IsHead p.works start := ⟨(hmem _).2 (.inl rfl), fun a ha => startDep a (pfdep _ _ ha)⟩
  have startChain : ∀ v, p.graph.InChain start v → v = start := by
    intro v hv
    rcases Relation.ReflTransGen.cases_head hv with h1 | ⟨c, h1, -⟩
    · exact h1.symm
    · exact absurd (fdep _ _ ((fol c start).1 h1)) ((new start h.new.1).2 c)
  have hreqs : ∀ v, C16.SoundReqs (reqs v) ∧ ((reqs v).map (·.kind)).Nodup ∧ ∀ r ∈ reqs v, r.kind < m := by
    intro v
    by_cases hv : v ∈ nodes
    · exact ⟨(h.reqs v hv).1, (h.reqs v hv).2, hE.kinds v hv⟩
    · rw [(h.only v hv).2.2]
      simp [C16.SoundReqs]
  refine ⟨⟨⟨hp.graph, hp.some, heads_acyclic hp, fun _ _ _ => Int.le_refl _, hE.contractors, ?_, fun _ _ hc => by cases hc⟩,
    ⟨hp.deps, fun v e hev _ => hT.lags v e hev, fun _ => rfl, ⟨start, ?_, heads⟩⟩, hE.bound, ?_, ?_, ?_, ?_, ⟨start, ⟨startHead, ?_⟩, ?_⟩⟩,
    ⟨hE.site.bound, hE.site.durations, ?_, ?_, hE.site.limits, hE.site.early, hE.site.allowed, hE.site.steady, hE.site.given⟩, hE.cost, hE.dur,
    hE.index, hE.sort, hE.first, ?_, ?_, ?_⟩
  · show ∀ v, C16.SoundReqs (p.reqs v) ∧ ((p.reqs v).map (·.kind)).Nodup ∧ ∀ r ∈ p.reqs v, r.kind < m
    rw [hr]; exact hreqs
  · show p.reqs start = []
    rw [hr]; exact (h.only _ h.new.1).2.2
  · intro v e hev
    exact ⟨hT.lags v e hev, (he v e hev).elim (hE.lags v e) fun h0 => by rw [h0]; exact hE.bound⟩
  · intro k v e hev h1 h2
    exact (he v e hev).elim (fun hv => hE.chains k v e hv (chain_same fol h1) (chain_same fol h2)) fun h0 => h0.le
  · intro k v hk
    refine ⟨?_, rfl⟩
    show p.reqs v = p.reqs k
    rw [hr]; exact hE.alike k v (chain_same fol hk)
  · intro v
    show ∃ c ∈ cs, C14.Admissible ⟨[], []⟩ c ∧ Generic.Able c (p.reqs v)
    rw [hr]
    by_cases hv : v ∈ nodes
    · obtain ⟨c, hc, h1⟩ := hE.done v hv
      exact ⟨c, hc, .inl rfl, h1⟩
    · obtain ⟨c, hc⟩ := List.exists_mem_of_ne_nil _ hE.contractors.nonempty
      refine ⟨c, hc, .inl rfl, ?_⟩
      rw [(h.only v hv).2.2]
      intro r hr'
      cases hr'
  · rintro q ⟨-, -, -, v, w, hv, -, hd⟩
    rw [startChain v hv] at hd
    exact startDep w hd
  · rintro s ⟨hs, hn⟩
    by_contra hne
    obtain ⟨q, hq⟩ := heads s hs hne
    exact hn q hq
  · show ∀ v, T.site.service v = true → p.reqs v = [] ∧ _
    rw [hr]; exact hE.site.service
  · show ∀ v, T.site.kinds v = (p.reqs v).map (·.kind)
    rw [hr]; exact hE.site.kinds
  · show 2 * ((p.works.length : Int) * (L + D)) < TIME_INF
    rw [hlen]; exact hE.half
  · show (p.works.length : Int) * (L + D) + L ≤ T.inf
    rw [hlen]; exact hE.late
  · show T.B.parentTime + (p.works.length : Int) * (2 * L + D + 1) < T.inf
    rw [hlen]; exact hE.room

open GeneticPipeline GeneticRun GeneticFull in
/-- The genetic scheduler, with the parallel scheme and, if no times are given, with the serial one: the project is built, the contractors are
accepted, and `finish` returns a project with a table for every schedule, at least one, each showing a valid schedule of all works. -/
theorem genetic_from_works {T : GeneticFull.Job σ} {m : Nat} {L D : Int} (h : SoundWorks g start finish nodes reqs)
    (hI : ∀ v ∈ start :: finish :: nodes, ∀ w ∈ start :: finish :: nodes, (I.model v).length = (I.model w).length)
    (hit : ∀ l, (iter l).Perm l) (hlag : lag ≠ .auto) (hE : Equipped T g nodes reqs cs m L D) (C : Config)
    (hC : ∀ p fuel, build g start finish nodes reqs prio fuel = some (some p) → C115.Possible C T p cs) :
    ∃ p N, p.works.Perm (start :: finish :: nodes) ∧ (∀ fuel, N ≤ fuel → build g start finish nodes reqs prio fuel = some (some p)) ∧
      (∃ l, l ≠ [] ∧ (∀ s ∈ l, Feasible p.graph p.works (LFT.agents cs) (Serves (GeneticPipeline.given T p (fun _ => 0) cs).J) s) ∧
        ∀ fuel, N ≤ fuel → ∃ c ts, runAll restructure p (.list cs) lag (parallel T C fuel fuel p) = .done cs c ∧
          projects I iter fuel c = some ts ∧ List.Forall₂ (Presents I p.graph p.works) l ts) ∧
      ((∀ v, T.B.assignedTime v = none) →
        ∃ l, l ≠ [] ∧ (∀ s ∈ l, Feasible p.graph p.works (LFT.agents cs) (Staffs cs (fun _ => ⟨[], []⟩) reqs) s) ∧
          ∀ fuel, N ≤ fuel → ∃ c ts, runAll restructure p (.list cs) lag (serial T C fuel fuel p) = .done cs c ∧
            projects I iter fuel c = some ts ∧ List.Forall₂ (Presents I p.graph p.works) l ts) := by
  obtain ⟨p, N, hb, hp, hT, hw, hr, -, hdep, hfo, he⟩ := builds (prio := prio) h hI
  have hlen : p.works.length = nodes.length + 2 := by rw [hw.length_eq]; rfl
  obtain ⟨⟨M, l, h1, h2, h3⟩, hs⟩ := C116.genetic_finishes (restructure := restructure) (given := .list cs) hp hT hit hlag
    (ready h hE hp hT hw hr hdep hfo he) C (hC p N (hb N le_rfl)) rfl
  by_cases hts : ∀ v, T.B.assignedTime v = none
  · obtain ⟨M', l', h1', h2', h3'⟩ := hs hts
    rw [hr] at h2'
    refine ⟨p, max (max N (nodes.length + 2)) (max M M'), hw, fun fuel hf => hb fuel (by omega),
      ⟨l, h1, h2, fun fuel hf => h3 fuel fuel fuel (by omega) (by omega) (by omega)⟩,
      fun _ => ⟨l', h1', h2', fun fuel hf => h3' fuel fuel fuel (by omega) (by omega) (by omega)⟩⟩
  · exact ⟨p, max (max N (nodes.length + 2)) M, hw, fun fuel hf => hb fuel (by omega),
      ⟨l, h1, h2, fun fuel hf => h3 fuel fuel fuel (by omega) (by omega) (by omega)⟩, fun hh => absurd hh hts⟩

/-! ### Works 1 and 2 are inseparable, work 3 may be done beside them -/

open PlainDemo

private def given : List Edge := [⟨1, 2, 0, .inseparable⟩, ⟨3, 5, 2, .lagFinishStart⟩]
private def reqs' (v : Nat) : List WorkerReq := if v = 1 ∨ v = 2 ∨ v = 3 ∨ v = 5 then [⟨0, 1, 2⟩] else []

private theorem given_edge {v : Nat} {e : Edge} (h : e ∈ (Graph.ofEdges given).edgesTo v) : e ∈ given ∧ e.finish = v := by
  rw [Graph.ofEdges_to] at h
  exact ⟨(List.mem_filter.1 h).1, by simpa using (List.mem_filter.1 h).2⟩

private theorem given_sound : SoundWorks (Graph.ofEdges given) 0 4 [1, 2, 3, 5] reqs' where
  some := by decide
  once := by decide
  linked := Graph.linked_ofEdges _
  closed := Graph.closed_ofEdges (by decide)
  only v hv := by
    have h1 : v ≠ 1 ∧ v ≠ 2 ∧ v ≠ 3 ∧ v ≠ 5 := by simpa using hv
    refine ⟨?_, ?_, by simp [reqs', h1]⟩
    · rw [Graph.ofEdges_to, List.filter_eq_nil_iff]
      simp [given]; omega
    · rw [Graph.ofEdges_from, List.filter_eq_nil_iff]
      simp [given]; omega
  new := by decide
  deps _ e he := (by decide : ∀ e ∈ given, e.type = .finishStart ∨ e.type = .lagFinishStart ∨ e.type = .inseparable) e (given_edge he).1
  lags _ e he := (by decide : ∀ e ∈ given, 0 ≤ e.lag) e (given_edge he).1
  acyclic := Graph.acyclic_ofEdges (fun v => v) (by decide)
  chains := Graph.chains_ofEdges (by decide)
  entered := by
    rintro v a b ⟨e, he, rfl, ht⟩ ⟨e', he', rfl, -⟩
    obtain ⟨h1, h2⟩ := given_edge he
    obtain ⟨h1', h2'⟩ := given_edge he'
    exact (by decide : ∀ e ∈ given, ∀ e' ∈ given, e.type = .inseparable → e'.finish = e.finish → e'.start = e.start)
      e h1 e' h1' ht (by rw [h2, h2'])
  reqs v _ := by unfold reqs'; split <;> simp [C16.SoundReqs]

private def info : Details :=
  ⟨fun v => if v = 1 then "pit" else "work", fun _ => [("granular_name", "a"), ("measurement", "unit")], fun v => v, fun v => v == 0 || v == 4,
    fun _ _ => 0, fun c => if c = 7 then "first" else "second", fun _ => "driver"⟩
private def site' : Env Unit :=
  { Demo.env with kinds := fun v => (reqs' v).map (·.kind), service := fun v => !(v == 1 || v == 2 || v == 3 || v == 5),
                  estimate := fun v team => if team = [] then 0 else min (10 * v) 40 }
private def settings : Settings Unit := ⟨site', (), fun _ => false, 5⟩

private theorem site_free : NoSiteLimits site' :=
  ⟨fun _ _ _ => Int.le_refl _, fun _ _ _ _ => Int.le_refl _, fun s _ t => ⟨s, t, rfl, Int.le_refl _⟩, fun s _ _ _ => ⟨s, rfl⟩,
    fun s => ⟨s, 0, rfl, Int.le_refl _⟩⟩

private theorem site_est (v : Nat) (team : List Worker) : 0 ≤ settings.site.estimate v team ∧ settings.site.estimate v team ≤ 40 := by
  simp only [settings, site']
  split <;> omega

private theorem entries : ∀ c ∈ demoContractors, ∀ v ∈ [1, 2, 3, 5], ∀ r ∈ reqs' v, ∃ n, c.workers.lookup r.kind = some n := by
  intro c hc v hv r hr
  simp only [demoContractors, List.mem_cons, List.not_mem_nil, or_false] at hc hv
  rcases hc with rfl | rfl <;> rcases hv with rfl | rfl | rfl | rfl <;> simp [reqs'] at hr <;> subst hr <;> exact ⟨_, rfl⟩

private theorem done_by : ∀ v ∈ [1, 2, 3, 5], CanBeDone demoContractors (reqs' v) := by
  intro v hv
  refine ⟨⟨7, [(0, 3)]⟩, by simp [demoContractors], fun r hr => ⟨3, ?_⟩⟩
  simp only [List.mem_cons, List.not_mem_nil, or_false] at hv
  rcases hv with rfl | rfl | rfl | rfl <;> simp [reqs'] at hr <;> subst hr <;> exact ⟨rfl, by decide⟩

example := heft_from_works (prio := fun v => 10 - v) (restructure := fun _ _ => none) (iter := id) (I := info) (lag := .on) given_sound
  (fun _ _ _ _ => rfl) (fun _ => List.Perm.refl _) (by decide) demo_contractors entries done_by settings site_free
  (fun _ _ _ _ h => ⟨h, h⟩) (by decide) 2 40 (by decide) (by decide) site_est
  (fun _ e he => (by decide : ∀ e ∈ given, e.lag ≤ 2) e (given_edge he).1) (by decide) (fun v => (v : ℚ)) (fun v => Nat.cast_nonneg v) demoOpt
  (fun _ _ _ => ⟨(C16.optimizers_stay_within fun _ => 0).2.2 1 1 (by decide) (by decide),
    (C54.optimizers_answer fun _ => 0).2.2 1 1 (by decide) (by decide)⟩)

private theorem follows_given {k v : Nat} (h : (Graph.ofEdges given).Follows k v) : k = 1 ∧ v = 2 := by
  obtain ⟨e, he, rfl, ht⟩ := h
  obtain ⟨h1, rfl⟩ := given_edge he
  exact (by decide : ∀ e ∈ given, e.type = .inseparable → e.start = 1 ∧ e.finish = 2) e h1 ht

private theorem chain_given {k v : Nat} (h : (Graph.ofEdges given).InChain k v) : k = v ∨ k = 1 ∧ v = 2 := by
  unfold Graph.InChain at h
  induction h with
  | refl => exact .inl rfl
  | tail _ hb ih =>
    obtain ⟨rfl, rfl⟩ := follows_given hb
    omega

example := lft_from_works (prio := fun v => 10 - v) (restructure := fun _ _ => none) (iter := List.reverse) (I := info) (lag := .off)
  given_sound (fun _ _ _ _ => rfl) List.reverse_perm (by decide) demo_contractors entries done_by settings site_free (by decide) 0 2 40 1000
  (by decide) (by decide) site_est (fun _ e he => (by decide : ∀ e ∈ given, e.lag ≤ 2) e (given_edge he).1)
  (fun k v e he h1 h2 => by
    obtain ⟨h3, rfl⟩ := given_edge he
    have h1 := chain_given h1
    have h2 := chain_given h2
    exact (by decide : ∀ e ∈ given, e.lag ≤ 0 ∨ e.start = 3 ∧ e.finish = 5) e h3 |>.elim id (by omega))
  (by decide) (fun _ => rfl) (fun v h => by
    simp only [settings, site', reqs'] at h ⊢
    split at h
    · simp; omega
    · exact absurd rfl h)
  (fun k v h => by
    rcases chain_given h with rfl | ⟨rfl, rfl⟩
    · exact .inl rfl
    · exact .inl rfl)

private def shown : Option (List (List (Nat × Int × Int))) :=
  match build (Graph.ofEdges given) 0 4 [1, 2, 3, 5] reqs' (fun v => 10 - v) 100 with
  | some (some p) =>
    match run (fun _ _ => none) p (.list demoContractors) .on (heft settings (fun v => (v : ℚ)) demoOpt [] 50 p) with
    | .done _ c => (projects info id 6 c).map fun ts => ts.map fun t => t.rows.map fun r => (r.id, r.start, r.finish)
    | _ => none
  | _ => none

-- a whole run from the works to the table
example : shown = some [[(0, 5, 5), (3, 5, 35), (1, 35, 45), (5, 37, 77), (2, 45, 65), (4, 77, 77)]] := by decide +kernel

namespace Genetic
open GeneticPipelineDemo GeneticFullDemo

private abbrev edges : List Edge := [⟨1, 2, 0, .inseparable⟩]

private theorem edge {v : Nat} {e : Edge} (h : e ∈ (Graph.ofEdges edges).edgesTo v) : e = ⟨1, 2, 0, .inseparable⟩ ∧ v = 2 := by
  rw [Graph.ofEdges_to] at h
  obtain rfl := List.mem_singleton.1 (List.mem_filter.1 h).1
  exact ⟨rfl, by have h2 := (List.mem_filter.1 h).2; simp at h2; exact h2.symm⟩

private theorem sound : SoundWorks (Graph.ofEdges edges) 0 4 [1, 2, 3] GeneticDemo.reqs where
  some := by decide
  once := by decide
  linked := Graph.linked_ofEdges _
  closed := Graph.closed_ofEdges (by decide)
  only v hv := by
    have h1 : v ≠ 1 ∧ v ≠ 2 ∧ v ≠ 3 := by simpa using hv
    refine ⟨?_, ?_, by simp [GeneticDemo.reqs, h1]⟩
    · rw [Graph.ofEdges_to, List.filter_eq_nil_iff]
      simp [edges]; omega
    · rw [Graph.ofEdges_from, List.filter_eq_nil_iff]
      simp [edges]; omega
  new := by decide
  deps _ e he := by rw [(edge he).1]; simp
  lags _ e he := by rw [(edge he).1]
  acyclic := Graph.acyclic_ofEdges (fun v => v) (by decide)
  chains := Graph.chains_ofEdges (by decide)
  entered := by
    rintro v a b ⟨e, he, rfl, -⟩ ⟨e', he', rfl, -⟩
    rw [(edge he).1, (edge he').1]
  reqs v _ := ⟨(GeneticDemo.sound.reqs v).1, (GeneticDemo.sound.reqs v).2.1⟩

private theorem chain {k v : Nat} (h : (Graph.ofEdges edges).InChain k v) : k = v ∨ k = 1 ∧ v = 2 := by
  unfold Graph.InChain at h
  induction h with
  | refl => exact .inl rfl
  | tail _ hb ih =>
    obtain ⟨e, he, rfl, -⟩ := hb
    obtain ⟨rfl, rfl⟩ := edge he
    dsimp only at ih
    omega

private theorem equipped : Equipped task (Graph.ofEdges edges) [1, 2, 3] GeneticDemo.reqs GeneticDemo.J.contractors 2 2 40 where
  contractors := GeneticFullDemo.ready.project.sound.contractors
  kinds v _ := (GeneticDemo.sound.reqs v).2.2
  done v _ := by
    obtain ⟨c, hc, -, ha⟩ := GeneticFullDemo.ready.project.able v
    exact ⟨c, hc, ha⟩
  alike k v h := by
    rcases chain h with rfl | ⟨rfl, rfl⟩
    · rfl
    · rfl
  bound := by decide
  lags _ e he := by rw [(edge he).1]; decide
  chains _ _ e he _ _ := by rw [(edge he).1]
  site := have h := GeneticFullDemo.ready.site
    ⟨h.bound, h.durations, h.service, h.kinds, h.limits, h.early, h.allowed, h.steady, h.given⟩
  cost := GeneticFullDemo.ready.cost
  dur := GeneticFullDemo.ready.dur
  index := GeneticFullDemo.ready.index
  sort := GeneticFullDemo.ready.sort
  first := GeneticFullDemo.ready.first
  half := by decide
  late := by decide
  room := by decide

example := genetic_from_works (prio := fun v => 10 - v) (restructure := fun _ _ => none) (iter := id) (I := info) (lag := .on) sound
  (fun _ _ _ _ => rfl) (fun _ => List.Perm.refl _) (by decide) equipped config (fun _ _ _ => ⟨draws_possible, fun _ _ P _ => still_possible P,
    ⟨2, fun _ => rfl⟩, fun _ _ ha => List.mem_of_mem_take ha, by decide, ⟨_, rfl, by decide, rfl, by decide⟩⟩)

end Genetic

end Sampo.C117
