import Verif.Spec.Finished
import Verif.Props.C80_Tables
import Verif.Props.C22_HeadNodes
import Verif.Lemmas.SchedJIT
import Verif.Lemmas.Heads

/-! # Tables of valid schedules -/

namespace Sampo.Finished
open ScheduleTable

theorem put_new {K V : Type} [DecidableEq K] {k : K} {v : V} : ∀ {d : List (K × V)}, k ∉ d.map (·.1) →
    Collections.put k v d = d ++ [(k, v)]
  | [], _ => rfl
  | e :: d, h => by
    rw [List.map_cons, List.mem_cons, not_or] at h
    rw [Collections.put, if_neg (Ne.symm h.1), put_new h.2]
    rfl

theorem foldl_put {α K V : Type} [DecidableEq K] {key : α → K} {value : α → V} : ∀ {items : List α} {d : List (K × V)},
    (d.map (·.1) ++ items.map key).Nodup →
    items.foldl (fun d x => Collections.put (key x) (value x) d) d = d ++ items.map fun x => (key x, value x)
  | [], d, _ => by simp
  | x :: items, d, h => by
    have hx : key x ∉ d.map (·.1) := by
      intro hm
      exact (List.nodup_append.mp h).2.2 _ hm _ (by simp) rfl
    rw [List.foldl_cons, put_new hx, foldl_put (by simpa using h)]
    simp

theorem entries_eq {t : Table} (h : (t.rows.map (·.id)).Nodup) : entries t = works t := by
  unfold entries Collections.buildIndex works
  rw [foldl_put (by simpa using h)]
  simp

theorem ofWorks_some {ws : List Work} (h0 : ws ≠ []) (hm : ∀ v ∈ ws, ∀ w ∈ ws, v.model.length = w.model.length) : ofWorks ws ≠ none := by
  intro h
  cases ws with
  | nil => exact h0 rfl
  | cons w ws =>
    obtain ⟨v, hv, hlt⟩ := (C80.raises_iff _).mp h w rfl
    have := hm v hv w List.mem_cons_self
    omega

private theorem get_of_mem {s : Sched} (hn : s.works.Nodup) {e : Nat × SWork} (he : e ∈ s) : s.get e.1 = some e.2 := by
  induction s with
  | nil => cases he
  | cons a s ih =>
    have hn' : a.1 ∉ Sched.works s ∧ (Sched.works s).Nodup := List.nodup_cons.mp hn
    rw [get_cons]
    rcases List.mem_cons.mp he with rfl | h
    · rw [if_pos rfl]
    · rw [if_neg, ih hn'.2 h]
      intro h'
      exact hn'.1 (h' ▸ List.mem_map_of_mem h)

/-- The table of a valid schedule shows it. -/
theorem project_presents {I : Details} {g : Graph} {nodes : List Nat} {pool : AgentId → Option Int}
    {accepts : Nat → List Worker → Nat → Prop} {s : Sched} (hac : Acyclic g.DependsOn) (hnd : nodes.Nodup)
    (hF : Feasible g nodes pool accepts s) (hlags : ∀ v, ∀ e ∈ g.edgesTo v, 0 ≤ e.lag)
    (hm : ∀ v ∈ nodes, ∀ w ∈ nodes, (I.model v).length = (I.model w).length) {final : Nat} (hfin : final ∈ nodes)
    (hlead : ∀ v ∈ nodes, Relation.ReflTransGen (fun p u => u ∈ nodes ∧ g.DependsOn u p) v final) {iter : List Nat → List Nat} (hit : ∀ l, (iter l).Perm l)
    {fuel : Nat} (hf : nodes.length ≤ fuel) : ∃ t, project I iter fuel g s = some t ∧ Presents I g nodes s t := by
  have hsn : s.works.Nodup := hF.works.nodup_iff.mpr hnd
  have hids : (values I s).map (·.id) = s.works.reverse := by
    unfold values Sched.works
    rw [List.map_map, ← List.map_reverse]
    rfl
  have hmem : ∀ w ∈ values I s, ∃ x, s.get w.id = some x ∧ w = workOf I (w.id, x) ∧ w.id ∈ nodes := by
    intro w hw
    obtain ⟨e, he, rfl⟩ := List.mem_map.mp hw
    rw [List.mem_reverse] at he
    exact ⟨e.2, get_of_mem hsn he, rfl, hF.works.mem_iff.mp (List.mem_map_of_mem he)⟩
  have hpar : (fun u v => v ∈ g.parents u) = g.DependsOn := by
    funext u v
    exact propext (Graph.mem_parents u v)
  have hac' : Acyclic fun u v => v ∈ g.parents u := by rw [hpar]; exact hac
  have hmodels : ∀ v ∈ values I s, ∀ w ∈ values I s, v.model.length = w.model.length := by
    intro v hv w hw
    obtain ⟨x, -, e1, h1⟩ := hmem v hv
    obtain ⟨y, -, e2, h2⟩ := hmem w hw
    rw [e1, e2]
    exact hm _ h1 _ h2
  have hne : values I s ≠ [] := by
    intro h
    rw [h, List.map_nil] at hids
    have := hF.works.mem_iff.mpr hfin
    rw [← List.mem_reverse, ← hids] at this
    cases this
  have hlen : (values I s).length ≤ fuel := by
    have h1 := congrArg List.length hids
    have h2 := hF.works.length_eq
    simp only [List.length_map, List.length_reverse] at h1
    omega
  have hvn : ((values I s).map (·.id)).Nodup := by rw [hids]; exact List.nodup_reverse.mpr hsn
  obtain ⟨t1, ht1, hp1, hs1, -⟩ := C80.ordered g.parents hac' iter hit (values I s) hvn fuel hlen (ofWorks_some hne hmodels)
  have hrow : ∀ {t : Table}, (∀ r ∈ t.rows, C80.Shows r.work r) → t.rows.map (·.id) = (works t).map (·.id) := by
    intro t h
    unfold works
    rw [List.map_map]
    exact List.map_congr_left fun r hr => (h r hr).id
  have hn1 : ((works t1).map (·.id)).Nodup := (hp1.map _).nodup_iff.mpr hvn
  have he : entries t1 = works t1 := entries_eq (by rw [hrow hs1]; exact hn1)
  obtain ⟨t, ht, hp, hs, hst, -, hto, hfd⟩ := C80.ordered g.parents hac' iter hit (works t1) hn1 fuel (by rw [hp1.length_eq]; exact hlen)
    (ofWorks_some (fun h => hne (List.perm_nil.mp (h ▸ hp1.symm))) fun v hv w hw => hmodels v (hp1.mem_iff.mp hv) w (hp1.mem_iff.mp hw))
  have hpp : (works t).Perm (values I s) := hp.trans hp1
  have htimes : ∀ w ∈ values I s, ∃ x, s.get w.id = some x ∧ w.times = (x.start, x.finish) ∧ x.start ≤ x.finish := by
    intro w hw
    obtain ⟨x, h1, h2, -⟩ := hmem w hw
    exact ⟨x, h1, by rw [h2]; rfl, hF.times _ _ h1⟩
  have hprec : ∀ a ∈ values I s, ∀ b ∈ values I s, b.id ∈ g.parents a.id → b.times.2 ≤ a.times.1 := by
    intro a ha b hb hab
    obtain ⟨x, h1, h2, h3⟩ := htimes a ha
    obtain ⟨y, h4, h5, h6⟩ := htimes b hb
    obtain ⟨e, he1, he2, -⟩ := (Graph.mem_parents _ _).mp hab
    obtain ⟨z, hz, hle⟩ := hF.precedence _ _ h1 e he1
    rw [he2, h4] at hz
    obtain rfl := Option.some.inj hz
    have := hlags _ e he1
    rw [h2, h5]
    show y.finish ≤ x.start
    omega
  have hall : ∀ w ∈ values I s, w.times.1 ≤ w.times.2 := by
    intro w hw
    obtain ⟨x, h1, h2, h3⟩ := htimes w hw
    rw [h2]
    exact h3
  have hto' := hto fun a ha b hb hab => by
    have ha' := hp1.mem_iff.mp ha
    have hb' := hp1.mem_iff.mp hb
    have h1 := hprec a ha' b hb' hab
    have h2 := hall b hb'
    omega
  have hrs : ∀ r ∈ t.rows, r.work ∈ values I s := fun r hr => hpp.mem_iff.mp (List.mem_map_of_mem hr)
  have hrt : ∀ r ∈ t.rows, r.start = r.work.times.1 ∧ r.finish = r.work.times.2 ∧ r.duration = r.work.times.2 - r.work.times.1 :=
    fun r hr => (hs r hr).times (hall _ (hrs r hr))
  have honce : (t.rows.map (·.id)).Perm nodes := by
    rw [hrow hs]
    refine (hpp.map _).trans ?_
    rw [hids]
    exact (List.reverse_perm _).trans hF.works
  have hio : t.rows.Pairwise fun a b => ¬ g.DependsOn a.id b.id := by
    have : t.rows.Pairwise fun a b => b.work.id ∉ g.parents a.work.id := List.pairwise_map.mp hto'
    refine this.imp_of_mem fun {a b} ha hb h hd => h ?_
    rw [Graph.mem_parents, ← (hs a ha).id, ← (hs b hb).id]
    exact hd
  refine ⟨t, ?_, ?_⟩
  · unfold project
    rw [ht1, Option.bind_some, he, ht]
  refine ⟨honce, ?_, ?_, hio, ?_, ?_⟩
  · intro r hr
    obtain ⟨x, h1, h2, h3⟩ := hmem _ (hrs r hr)
    obtain ⟨a1, a2, a3⟩ := hrt r hr
    have hid := (hs r hr).id
    refine ⟨x, by rw [hid]; exact h1, ?_, ?_, ?_, ?_, ?_, ?_, fun hk => ?_⟩
    · rw [(hs r hr).name, hid]; exact congrArg Work.name h2
    · rw [(hs r hr).volume, hid]; exact congrArg Work.volume h2
    · rw [a1]; exact congrArg (fun w : Work => w.times.1) h2
    · rw [a2]; exact congrArg (fun w : Work => w.times.2) h2
    · rw [a3]; exact congrArg (fun w : Work => w.times.2 - w.times.1) h2
    · rw [(hs r hr).contractor]; exact congrArg Work.contractor h2
    · have ht : r.work.team = x.team.map fun w => (I.kind w.name, w.count) := congrArg Work.team h2
      rw [(hs r hr).workers, ht]
      rw [ht, List.map_map]
      exact hk
  · have : t.rows.Pairwise fun a b => a.work.times.1 ≤ b.work.times.1 := by
      unfold works at hst
      rwa [List.pairwise_map] at hst
    refine this.imp_of_mem fun {a b} ha hb h => ?_
    rw [(hrt a ha).1, (hrt b hb).1]
    exact h
  · -- the row of the last work is the last row
    obtain ⟨rf, hrf, -⟩ := List.mem_map.mp (honce.mem_iff.mpr hfin)
    have hne' : t.rows ≠ [] := List.ne_nil_of_mem hrf
    have hle : ∀ v ∈ nodes, ∀ x, s.get v = some x → ∀ y, s.get final = some y → x.finish ≤ y.finish := by
      intro v hv x hx y hy
      have key : ∀ u, Relation.ReflTransGen (fun p u => u ∈ nodes ∧ g.DependsOn u p) v u → ∀ z, s.get u = some z → x.finish ≤ z.finish := by
        intro u hu
        induction hu with
        | refl => intro z hz; rw [hx] at hz; exact le_of_eq (congrArg SWork.finish (Option.some.inj hz))
        | @tail b c _ hbc ih =>
          intro z hz
          obtain ⟨e, he1, he2, -⟩ := hbc.2
          obtain ⟨w, hw, hle⟩ := hF.precedence _ _ hz e he1
          rw [he2] at hw
          have h1 := ih w hw
          have h2 := hlags _ e he1
          have h3 := hF.times _ _ hz
          omega
      exact key final (hlead v hv) y hy
    have hlast : (t.rows.getLast hne').id = final := by
      have hmem' : (t.rows.getLast hne').id ∈ nodes := honce.mem_iff.mp (List.mem_map_of_mem (List.getLast_mem hne'))
      rcases Relation.ReflTransGen.cases_head (hlead _ hmem') with h | ⟨u, ⟨hu, hd⟩, -⟩
      · exact h
      · exfalso
        obtain ⟨ru, hru, rfl⟩ := List.mem_map.mp (honce.mem_iff.mpr hu)
        rw [← List.dropLast_append_getLast hne', List.mem_append, List.mem_singleton] at hru
        rcases hru with hru | rfl
        · rw [← List.dropLast_append_getLast hne', List.pairwise_append] at hio
          exact hio.2.2 ru hru _ (List.mem_singleton_self _) hd
        · exact hac _ (.single hd)
    obtain ⟨x, hx, hxt, -⟩ := htimes _ (hrs _ (List.getLast_mem hne'))
    have hxf : s.get final = some x := by rw [← hlast, (hs _ (List.getLast_mem hne')).id]; exact hx
    refine ⟨x.finish, ?_, fun v y hy => hle v (hF.works.mem_iff.mp ((get_isSome_iff s v).mp ⟨y, hy⟩)) y hy x hxf, final, x, hxf, rfl⟩
    unfold executionTime
    rw [List.getLast?_eq_getLast_of_ne_nil hne', Option.map_some, (hrt _ (List.getLast_mem hne')).2.1, hxt]
  · intro v hv
    obtain ⟨r, hr, rfl⟩ := List.mem_map.mp (honce.mem_iff.mpr hv)
    obtain ⟨x, h1, h2, -⟩ := htimes _ (hrs r hr)
    refine ⟨r.work, x, (hfd _ _).mpr ⟨hp.mem_iff.mp (List.mem_map_of_mem hr), (hs r hr).id.symm⟩, ?_, (hs r hr).id.symm, h2⟩
    rw [(hs r hr).id]
    exact h1

end Sampo.Finished
