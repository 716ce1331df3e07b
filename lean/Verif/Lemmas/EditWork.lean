import Verif.Lemmas.EditDelete
import Verif.Lemmas.Heads

namespace Sampo.Graph

variable {g : Graph} {nodes : List Nat} {start r : Nat}

/-! ### Graphs of which only some works are looked at -/

theorem Project.projectOf (hp : g.Project start nodes) : g.ProjectOf start nodes := by
  have hb : ∀ {a b : Nat}, (g.only nodes).Before a b → g.Before a b := fun h => (only_before.mp h).2
  refine ⟨hp.once, ⟨?_, ?_, ?_⟩, hp.start_mem, ?_, ?_, ?_⟩
  · intro v e he
    by_cases hv : v ∈ nodes
    · rw [only_to hv] at he; exact hp.linked.finish v e he
    · rw [show (g.only nodes).edgesTo v = [] from if_neg hv] at he; cases he
  · intro v e he
    by_cases hv : v ∈ nodes
    · rw [only_from hv] at he; exact hp.linked.start v e he
    · rw [show (g.only nodes).edgesFrom v = [] from if_neg hv] at he; cases he
  · intro e
    by_cases hf : e.finish ∈ nodes
    · by_cases hs : e.start ∈ nodes
      · rw [only_to hf, only_from hs]; exact hp.linked.count e
      · rw [show (g.only nodes).edgesFrom e.start = [] from if_neg hs, only_to hf, List.count_nil]
        exact List.count_eq_zero.mpr fun h => hs ((hp.closed _ hf).1 e h)
    · by_cases hs : e.start ∈ nodes
      · rw [show (g.only nodes).edgesTo e.finish = [] from if_neg hf, only_from hs, List.count_nil]
        exact (List.count_eq_zero.mpr fun h => hf ((hp.closed _ hs).2 e h)).symm
      · rw [show (g.only nodes).edgesTo e.finish = [] from if_neg hf,
          show (g.only nodes).edgesFrom e.start = [] from if_neg hs]
  · intro v hv
    rw [only_to hv, only_from hv]
    exact hp.closed v hv
  · intro v hv
    have : ∀ {w : Nat}, g.Reaches start w → (g.only nodes).Reaches start w := by
      intro w hw
      induction hw with
      | refl => exact Relation.ReflTransGen.refl
      | tail h1 h2 ih => exact ih.tail (only_before.mpr ⟨reaches_mem hp.linked hp.closed hp.start_mem (h1.tail h2), h2⟩)
    exact this (hp.reach v hv)
  · intro v hv hc
    exact hp.acyclic v hv (Relation.TransGen.mono (fun _ _ h => hb h) v v hc)

namespace ProjectOf

variable (hp : g.ProjectOf start nodes)
include hp

theorem reaches_iff {u v : Nat} (hv : v ∈ nodes) : (g.only nodes).Reaches u v ↔ g.Reaches u v := by
  constructor
  · intro h
    exact Relation.ReflTransGen.mono (fun _ _ h => (only_before.mp h).2) u v h
  · intro h
    induction h with
    | refl => exact Relation.ReflTransGen.refl
    | tail _ h ih =>
      obtain ⟨e, he, rfl⟩ := h
      exact (ih (hp.start_of_to hv he).2).tail (only_before.mpr ⟨hv, e, he, rfl⟩)

theorem depends_mem {v p : Nat} (hv : v ∈ nodes) (h : g.DependsOn v p) : p ∈ nodes := by
  obtain ⟨e, he, rfl, _⟩ := h
  exact (hp.start_of_to hv he).2

theorem waits_mem {v p : Nat} (hv : v ∈ nodes) (h : g.WaitsFor v p) : p ∈ nodes := by
  induction h with
  | single h => exact hp.depends_mem hv h
  | tail _ h ih => exact hp.depends_mem ih h

/-- The traversal visits exactly the works that remain. -/
theorem traverse_only {fuel : Nat} : ∀ {queue visited : List Nat}, (∀ v ∈ queue, v ∈ nodes) →
    g.traverseLoop fuel queue visited = (g.only nodes).traverseLoop fuel queue visited := by
  induction fuel with
  | zero => intro queue visited _; rfl
  | succ fuel ih =>
    intro queue visited hq
    cases queue with
    | nil => rfl
    | cons v queue =>
      have hv := hq v List.mem_cons_self
      have hq' : ∀ w ∈ queue, w ∈ nodes := fun w hw => hq w (List.mem_cons_of_mem _ hw)
      unfold traverseLoop
      rw [only_to hv, only_from hv]
      rw [ih (queue := queue ++ [v]) (by
        intro w hw
        rcases List.mem_append.mp hw with hw | hw
        · exact hq' w hw
        · rw [List.mem_singleton.mp hw]; exact hv), ih hq', ih (queue := queue ++ _) (by
        intro w hw
        rcases List.mem_append.mp hw with hw | hw
        · exact hq' w hw
        · obtain ⟨e, he, rfl⟩ := List.mem_map.mp hw
          exact (hp.finish_of_from hv he).2)]

omit hp in
theorem dependsOn_iff (hd : g.OnlyDependencies r) {p : Nat} : g.DependsOn r p ↔ g.Before p r := by
  constructor
  · rintro ⟨e, he, h, _⟩; exact ⟨e, he, h⟩
  · rintro ⟨e, he, h⟩
    refine ⟨e, he, h, ?_⟩
    have := hd.1 e he
    revert this
    cases e.type <;> simp [EdgeType.isDependency]

theorem dependsOn_deleted_iff (hr : r ∈ nodes) (hd : g.OnlyDependencies r) {v : Nat} (hv : v ∈ nodes) :
    g.DependsOn v r ↔ g.Before r v := by
  constructor
  · rintro ⟨e, he, h, _⟩; exact ⟨e, he, h⟩
  · rintro ⟨e, he, rfl⟩
    refine ⟨e, he, rfl, ?_⟩
    have h1 := hp.start_of_to hv he
    have h2 : e ∈ (g.only nodes).edgesFrom e.start := (hp.linked.both e).mp (by rw [h1.1, only_to hv]; exact he)
    rw [only_from hr] at h2
    have := hd.2 e h2
    revert this
    cases e.type <;> simp [EdgeType.isDependency]

theorem delete_depends (hr : r ∈ nodes) (hd : g.OnlyDependencies r) {p v : Nat} (hv : v ∈ nodes) (hne : v ≠ r) :
    (g.deleteNode r).DependsOn v p ↔ p ≠ r ∧ (g.DependsOn v p ∨ g.DependsOn v r ∧ g.DependsOn r p) := by
  constructor
  · rintro ⟨e, he, rfl, ht⟩
    rw [deleteNode_to hp.linked hr hd hv] at he
    rcases List.mem_append.mp he with he | he
    · obtain ⟨h1, h2⟩ := List.mem_filter.mp he
      exact ⟨by simpa using h2, Or.inl ⟨e, h1, rfl, ht⟩⟩
    · obtain ⟨h1, h2⟩ := List.mem_filter.mp he
      obtain ⟨h3, h4, _⟩ := mem_bridges.mp h1
      have h5 := hp.mem_parents hr h3
      have h6 := hp.mem_children hr h4
      rw [show e.finish = v by simpa using h2] at h6
      exact ⟨h5.2.1, Or.inr ⟨(hp.dependsOn_deleted_iff hr hd hv).mpr h6.2.2, (dependsOn_iff hd).mpr h5.2.2⟩⟩
  · rintro ⟨hpr, h | ⟨h1, h2⟩⟩
    · obtain ⟨e, he, rfl, ht⟩ := h
      refine ⟨e, ?_, rfl, ht⟩
      rw [deleteNode_to hp.linked hr hd hv]
      exact List.mem_append_left _ (List.mem_filter.mpr ⟨he, by simpa using hpr⟩)
    · refine ⟨⟨p, v, 0, .finishStart⟩, ?_, rfl, Or.inl rfl⟩
      rw [deleteNode_to hp.linked hr hd hv]
      refine List.mem_append_right _ (List.mem_filter.mpr ⟨mem_bridges.mpr ⟨?_, ?_, rfl, rfl⟩, by simp⟩)
      · exact hp.parents_of hd ((dependsOn_iff hd).mp h2)
      · exact hp.children_of hr hd hv ((hp.dependsOn_deleted_iff hr hd hv).mp h1)

theorem delete_waits (hr : r ∈ nodes) (hd : g.OnlyDependencies r) {v p : Nat} (hv : v ∈ nodes) (hvr : v ≠ r) (hpr : p ≠ r) :
    (g.deleteNode r).WaitsFor v p ↔ g.WaitsFor v p := by
  constructor
  · intro h
    clear hpr
    have key : g.WaitsFor v p ∧ p ≠ r ∧ p ∈ nodes := by
      induction h with
      | single h =>
        obtain ⟨h1, h2 | ⟨h2, h3⟩⟩ := (hp.delete_depends hr hd hv hvr).mp h
        · exact ⟨.single h2, h1, hp.depends_mem hv h2⟩
        · exact ⟨(Relation.TransGen.single h2).tail h3, h1, hp.depends_mem hr h3⟩
      | tail _ h ih =>
        obtain ⟨h1, h2 | ⟨h2, h3⟩⟩ := (hp.delete_depends hr hd ih.2.2 ih.2.1).mp h
        · exact ⟨ih.1.tail h2, h1, hp.depends_mem ih.2.2 h2⟩
        · exact ⟨(ih.1.tail h2).tail h3, h1, hp.depends_mem hr h3⟩
    exact key.1
  · intro h
    have key : (p ≠ r → (g.deleteNode r).WaitsFor v p) ∧
        (p = r → ∃ x, x ∈ nodes ∧ x ≠ r ∧ g.DependsOn x r ∧ (x = v ∨ (g.deleteNode r).WaitsFor v x)) := by
      clear hpr
      induction h with
      | single h =>
        refine ⟨fun hne => .single ((hp.delete_depends hr hd hv hvr).mpr ⟨hne, Or.inl h⟩), fun he => ?_⟩
        exact ⟨v, hv, hvr, he ▸ h, Or.inl rfl⟩
      | @tail b c hvb h ih =>
        have hb := hp.waits_mem hv hvb
        constructor
        · intro hc
          by_cases hbr : b = r
          · obtain ⟨x, hx, hxr, hdx, hvx⟩ := ih.2 hbr
            have hs := (hp.delete_depends hr hd hx hxr).mpr ⟨hc, Or.inr ⟨hdx, hbr ▸ h⟩⟩
            rcases hvx with rfl | hvx
            · exact .single hs
            · exact hvx.tail hs
          · exact (ih.1 hbr).tail ((hp.delete_depends hr hd hb hbr).mpr ⟨hc, Or.inl h⟩)
        · intro hc
          subst hc
          have hbr : b ≠ c := by
            rintro rfl
            exact hp.no_loop hb ((dependsOn_iff hd).mp h)
          exact ⟨b, hb, hbr, h, Or.inr (ih.1 hbr)⟩
    exact key.1 hpr

theorem delete_only (hr : r ∈ nodes) (hd : g.OnlyDependencies r) {v : Nat} (hv : v ∈ nodes)
    (h : g.OnlyDependencies v) : (g.deleteNode r).OnlyDependencies v := by
  constructor
  · intro e he
    rw [deleteNode_to hp.linked hr hd hv] at he
    rcases List.mem_append.mp he with he | he
    · exact h.1 e (List.mem_filter.mp he).1
    · rw [(mem_bridges.mp (List.mem_filter.mp he).1).2.2.2]; rfl
  · intro e he
    rw [deleteNode_from hp.linked hr hd hv] at he
    rcases List.mem_append.mp he with he | he
    · exact h.2 e (List.mem_filter.mp he).1
    · rw [(mem_bridges.mp (List.mem_filter.mp he).1).2.2.2]; rfl

theorem delete_insepParent (hr : r ∈ nodes) (hd : g.OnlyDependencies r) {v : Nat} (hv : v ∈ nodes) (h : ¬ g.Before r v) :
    (g.deleteNode r).insepParent v = g.insepParent v := by
  unfold insepParent
  rw [deleteNode_to hp.linked hr hd hv, List.filter_append]
  have h1 : ((g.edgesTo v).filter fun e => e.start ≠ r) = g.edgesTo v :=
    List.filter_eq_self.2 fun e he => by
      simp only [ne_eq, decide_eq_true_eq]
      intro hs
      exact h ⟨e, he, hs⟩
  have h2 : ((g.bridges r).filter fun e => e.finish = v).filter (fun e => e.type = .inseparable) = [] := by
    rw [List.filter_eq_nil_iff]
    intro e he
    rw [(mem_bridges.mp (List.mem_filter.mp he).1).2.2.2]
    simp
  rw [h1, h2, List.append_nil]

end ProjectOf

theorem insepParent_before {v p : Nat} (h : g.insepParent v = some p) : g.Before p v := by
  unfold insepParent at h
  rw [List.head?_map, Option.map_eq_some_iff] at h
  obtain ⟨e, he, rfl⟩ := h
  exact ⟨e, (List.mem_filter.mp (List.mem_of_mem_head? he)).1, rfl⟩

/-- What remains of a graph is as it was. -/
structure Keeps (g : Graph) (g' : Graph) (nodes' : List Nat) : Prop where
  reaches : ∀ u ∈ nodes', ∀ v ∈ nodes', (g'.Reaches u v ↔ g.Reaches u v)
  waits : ∀ v ∈ nodes', ∀ p ∈ nodes', (g'.WaitsFor v p ↔ g.WaitsFor v p)

theorem ProjectOf.delete_keeps (hp : g.ProjectOf start nodes) (hr : r ∈ nodes) (hrs : r ≠ start) (hd : g.OnlyDependencies r) :
    Keeps g (g.deleteNode r) (nodes.erase r) := by
  have hmem : ∀ {x : Nat}, x ∈ nodes.erase r ↔ x ≠ r ∧ x ∈ nodes := fun {x} => hp.once.mem_erase_iff
  refine ⟨fun u hu v hv => ?_, fun v hv p hpp => hp.delete_waits hr hd (hmem.mp hv).2 (hmem.mp hv).1 (hmem.mp hpp).1⟩
  rw [← (hp.delete_project hr hrs hd).reaches_iff hv, hp.delete_reaches hr hd (hmem.mp hu).1 (hmem.mp hv).1,
    hp.reaches_iff (hmem.mp hv).2]

theorem deleteUp_none (fuel : Nat) (g : Graph) (nodes : List Nat) : deleteUp fuel g nodes none = some (g, nodes) := by
  cases fuel <;> rfl

/-- The loop over inseparable parents deletes a given chain of works. -/
theorem deleteUp_spec : ∀ (L : List Nat) (fuel : Nat) (g : Graph) (nodes : List Nat), L.length ≤ fuel →
    g.ProjectOf start nodes → (∀ v ∈ L, v ∈ nodes ∧ v ≠ start ∧ g.OnlyDependencies v) →
    L.IsChain (fun v p => g.insepParent v = some p) → (∀ x, L.getLast? = some x → g.insepParent x = none) →
    ∃ g', deleteUp fuel g nodes L.head? = some (g', nodes.filter fun v => v ∉ L) ∧
      g'.ProjectOf start (nodes.filter fun v => v ∉ L) ∧ Keeps g g' (nodes.filter fun v => v ∉ L)
  | [], fuel, g, nodes, _, hp, _, _, _ => by
    have : (nodes.filter fun v => v ∉ ([] : List Nat)) = nodes := List.filter_eq_self.2 (by simp)
    rw [this]
    exact ⟨g, deleteUp_none _ _ _, hp, ⟨fun _ _ _ _ => Iff.rfl, fun _ _ _ _ => Iff.rfl⟩⟩
  | r :: L, 0, _, _, hf, _, _, _, _ => by simp at hf
  | r :: L, fuel + 1, g, nodes, hf, hp, hL, hc, hlast => by
    obtain ⟨hr, hrs, hd⟩ := hL r List.mem_cons_self
    -- works further up the chain come before `r`
    have hup : ∀ v ∈ L, Relation.TransGen (g.only nodes).Before v r := by
      have : ∀ (M : List Nat) (a : Nat), a ∈ nodes → (∀ v ∈ M, v ∈ nodes) →
          (a :: M).IsChain (fun v p => g.insepParent v = some p) → ∀ v ∈ M, Relation.TransGen (g.only nodes).Before v a := by
        intro M
        induction M with
        | nil => intro a _ _ _ v hv; cases hv
        | cons b M ih =>
          intro a ha hM hch v hv
          rw [List.isChain_cons_cons] at hch
          have h1 : Relation.TransGen (g.only nodes).Before b a := .single (only_before.mpr ⟨ha, insepParent_before hch.1⟩)
          rcases List.mem_cons.mp hv with rfl | hv
          · exact h1
          · exact (ih b (hM b List.mem_cons_self) (fun w hw => hM w (List.mem_cons_of_mem _ hw)) hch.2 v hv).trans h1
      exact this L r hr (fun v hv => (hL v (List.mem_cons_of_mem _ hv)).1) hc
    have hnb : ∀ v ∈ L, ¬ g.Before r v ∧ v ≠ r := by
      intro v hv
      have h1 := hup v hv
      have hvn := (hL v (List.mem_cons_of_mem _ hv)).1
      refine ⟨fun h => hp.acyclic v hvn (h1.tail (only_before.mpr ⟨hvn, h⟩)), ?_⟩
      rintro rfl
      exact hp.acyclic v hr h1
    have hnext : g.insepParent r = L.head? := by
      cases L with
      | nil => exact hlast r rfl
      | cons p M => rw [List.isChain_cons_cons] at hc; exact hc.1
    have hsame : ∀ v ∈ L, (g.deleteNode r).insepParent v = g.insepParent v := fun v hv =>
      hp.delete_insepParent hr hd (hL v (List.mem_cons_of_mem _ hv)).1 (hnb v hv).1
    have hp' := hp.delete_project hr hrs hd
    obtain ⟨g', h1, h2, h3⟩ := deleteUp_spec L fuel (g.deleteNode r) (nodes.erase r) (by simpa using hf) hp'
      (fun v hv => by
        obtain ⟨k1, k2, k3⟩ := hL v (List.mem_cons_of_mem _ hv)
        exact ⟨hp.once.mem_erase_iff.mpr ⟨(hnb v hv).2, k1⟩, k2, hp.delete_only hr hd k1 k3⟩)
      (by
        have hc' : L.IsChain (fun v p => g.insepParent v = some p) := by
          cases L with
          | nil => exact List.isChain_nil
          | cons p M => exact (List.isChain_cons_cons.mp hc).2
        refine List.IsChain.imp_of_mem_imp ?_ hc'
        intro a b ha _ h
        rw [hsame a ha]; exact h)
      (by
        intro x hx
        rw [hsame x (List.mem_of_getLast? hx)]
        refine hlast x ?_
        cases L with
        | nil => simp at hx
        | cons p M => rw [List.getLast?_cons_cons]; exact hx)
    have hfil : (nodes.erase r).filter (fun v => v ∉ L) = nodes.filter fun v => v ∉ r :: L := by
      rw [hp.once.erase_eq_filter, List.filter_filter]
      refine List.filter_congr fun v _ => ?_
      rw [Bool.eq_iff_iff]
      simp only [List.mem_cons, not_or, Bool.and_eq_true, decide_eq_true_eq, bne_iff_ne, ne_eq]
      tauto
    rw [hfil] at h1 h2 h3
    refine ⟨g', ?_, h2, ?_⟩
    · rw [List.head?_cons, deleteUp, hnext]; exact h1
    · have hk := hp.delete_keeps hr hrs hd
      have hsub : ∀ v ∈ nodes.filter (fun v => v ∉ r :: L), v ∈ nodes.erase r := by
        intro v hv
        rw [← hfil] at hv
        exact (List.mem_filter.mp hv).1
      exact ⟨fun u hu v hv => (h3.reaches u hu v hv).trans (hk.reaches u (hsub u hu) v (hsub v hv)),
        fun v hv p hpp => (h3.waits v hv p hpp).trans (hk.waits v (hsub v hv) p (hsub p hpp))⟩

/-! ### Inseparable chains -/

theorem insepSon_follows (hl : g.Linked) {v s : Nat} (h : g.insepSon v = some s) : g.Follows v s := by
  unfold insepSon at h
  rw [List.head?_map, Option.map_eq_some_iff] at h
  obtain ⟨e, he, rfl⟩ := h
  obtain ⟨h1, h2⟩ := List.mem_filter.mp (List.mem_of_mem_head? he)
  have hs := hl.start v e h1
  refine ⟨e, (hl.both e).mpr (by rw [hs]; exact h1), hs, by simpa using h2⟩

theorem insepParent_of_follows (hc : g.Chains) {p v : Nat} (h : g.Follows p v) : g.insepParent v = some p := by
  cases hq : g.insepParent v with
  | none =>
    exfalso
    obtain ⟨e, he, rfl, ht⟩ := h
    unfold insepParent at hq
    rw [List.head?_eq_none_iff, List.map_eq_nil_iff, List.filter_eq_nil_iff] at hq
    exact hq e he (by simpa using ht)
  | some q =>
    have : g.Follows q v := by
      unfold insepParent at hq
      rw [List.head?_map, Option.map_eq_some_iff] at hq
      obtain ⟨e, he, rfl⟩ := hq
      obtain ⟨h1, h2⟩ := List.mem_filter.mp (List.mem_of_mem_head? he)
      exact ⟨e, h1, rfl, by simpa using h2⟩
    rw [hc.oneParent _ _ _ this h]

theorem chainFrom_ne (fuel v : Nat) : g.chainFrom fuel v ≠ [] := by
  cases fuel with
  | zero => simp [chainFrom]
  | succ fuel => rw [chainFrom]; cases g.insepSon v <;> simp

theorem chainFrom_head (fuel v : Nat) : (g.chainFrom fuel v).head? = some v := by
  cases fuel with
  | zero => simp [chainFrom]
  | succ fuel => rw [chainFrom]; cases g.insepSon v <;> simp

theorem chainFrom_isChain (hl : g.Linked) : ∀ (fuel v : Nat), (g.chainFrom fuel v).IsChain g.Follows
  | 0, v => by simp [chainFrom]
  | fuel + 1, v => by
    rw [chainFrom]
    cases hs : g.insepSon v with
    | none => simp
    | some s =>
      dsimp only
      have ih := chainFrom_isChain hl fuel s
      have hh := chainFrom_head (g := g) fuel s
      cases hM : g.chainFrom fuel s with
      | nil => simp
      | cons a M =>
        rw [hM] at ih hh
        have : a = s := by simpa using hh
        subst this
        exact List.isChain_cons_cons.mpr ⟨insepSon_follows hl hs, ih⟩

/-! ### Relations in copies -/

variable {ν : Nat → Nat}

theorem copy_rel (hp : g.Project start nodes) (hν : DistinctNames ν nodes) (T : EdgeType → Prop) {v p' : Nat} (hv : v ∈ nodes) :
    (∃ e ∈ (g.copy nodes [] ν).edgesTo (ν v), e.start = p' ∧ T e.type) ↔
      ∃ p, p ∈ nodes ∧ p' = ν p ∧ ∃ e ∈ g.edgesTo v, e.start = p ∧ T e.type := by
  rw [copy_edgesTo hp.linked hp.once hp.closed hν hv]
  constructor
  · rintro ⟨e', he', rfl, ht⟩
    obtain ⟨e, he, rfl⟩ := List.mem_map.mp he'
    exact ⟨e.start, (hp.closed v hv).1 e he, rfl, e, he, rfl, ht⟩
  · rintro ⟨p, _, rfl, e, he, rfl, ht⟩
    exact ⟨Edge.rename ν e, List.mem_map_of_mem he, rfl, ht⟩

theorem copy_depends (hp : g.Project start nodes) (hν : DistinctNames ν nodes) {v p : Nat} (hv : v ∈ nodes) (hpn : p ∈ nodes) :
    (g.copy nodes [] ν).DependsOn (ν v) (ν p) ↔ g.DependsOn v p := by
  refine (copy_rel hp hν (fun t => t = .finishStart ∨ t = .lagFinishStart ∨ t = .inseparable) hv).trans ⟨?_, fun h => ⟨p, hpn, rfl, h⟩⟩
  rintro ⟨q, hq, he, h⟩
  rw [hν p hpn q hq he]; exact h

theorem copy_follows (hp : g.Project start nodes) (hν : DistinctNames ν nodes) {v p : Nat} (hv : v ∈ nodes) (hpn : p ∈ nodes) :
    (g.copy nodes [] ν).Follows (ν p) (ν v) ↔ g.Follows p v := by
  refine (copy_rel hp hν (· = .inseparable) hv).trans ⟨?_, fun h => ⟨p, hpn, rfl, h⟩⟩
  rintro ⟨q, hq, he, h⟩
  rw [hν p hpn q hq he]; exact h

theorem copy_waits (hp : g.Project start nodes) (hν : DistinctNames ν nodes) {v p : Nat} (hv : v ∈ nodes) (hpn : p ∈ nodes) :
    (g.copy nodes [] ν).WaitsFor (ν v) (ν p) ↔ g.WaitsFor v p := by
  have hpo := hp.projectOf
  constructor
  · intro h
    have key : ∀ {b : Nat}, (g.copy nodes [] ν).WaitsFor (ν v) b → ∃ p, p ∈ nodes ∧ b = ν p ∧ g.WaitsFor v p := by
      intro b h
      induction h with
      | single h =>
        obtain ⟨p, h1, h2, h3⟩ := (copy_rel hp hν (fun t => t = .finishStart ∨ t = .lagFinishStart ∨ t = .inseparable) hv).mp h
        exact ⟨p, h1, h2, .single h3⟩
      | tail _ h ih =>
        obtain ⟨q, hq, rfl, hw⟩ := ih
        obtain ⟨p, h1, h2, h3⟩ := (copy_rel hp hν (fun t => t = .finishStart ∨ t = .lagFinishStart ∨ t = .inseparable) hq).mp h
        exact ⟨p, h1, h2, hw.tail h3⟩
    obtain ⟨q, hq, he, h⟩ := key h
    rw [hν p hpn q hq he]; exact h
  · intro h
    clear hpn
    induction h with
    | single h => exact .single ((copy_depends hp hν hv (hpo.depends_mem hv h)).mpr h)
    | tail h1 h2 ih =>
      have hb := hpo.waits_mem hv h1
      exact ih.tail ((copy_depends hp hν hb (hpo.depends_mem hb h2)).mpr h2)

theorem copy_reaches_iff (hp : g.Project start nodes) (hν : DistinctNames ν nodes) {u v : Nat} (hu : u ∈ nodes) (hv : v ∈ nodes) :
    (g.copy nodes [] ν).Reaches (ν u) (ν v) ↔ g.Reaches u v := by
  refine ⟨fun h => ?_, copy_reaches hp.linked hp.closed hu⟩
  rcases Relation.reflTransGen_iff_eq_or_transGen.mp h with h | h
  · rw [hν v hv u hu h]; exact Relation.ReflTransGen.refl
  · obtain ⟨a, b, ha, hb, _, _, h1, h2, h3⟩ := copy_trans hp.linked hν h
    rw [hν u hu a ha h1, hν v hv b hb h2]
    exact h3.to_reflTransGen

theorem copy_only (hp : g.Project start nodes) (hν : DistinctNames ν nodes) {v : Nat} (hv : v ∈ nodes)
    (h : g.OnlyDependencies v) : (g.copy nodes [] ν).OnlyDependencies (ν v) := by
  constructor
  · intro e he
    rw [copy_edgesTo hp.linked hp.once hp.closed hν hv] at he
    obtain ⟨x, hx, rfl⟩ := List.mem_map.mp he
    exact h.1 x hx
  · intro e he
    obtain ⟨x, hx, rfl⟩ := List.mem_map.mp ((copy_edgesFrom hp.linked hp.once hp.closed hν hv).mem_iff.mp he)
    exact h.2 x hx

theorem copy_follows_inv (hp : g.Project start nodes) (hν : DistinctNames ν nodes) {a b : Nat}
    (h : (g.copy nodes [] ν).Follows a b) : ∃ u v, u ∈ nodes ∧ v ∈ nodes ∧ a = ν u ∧ b = ν v ∧ g.Follows u v := by
  obtain ⟨e, he, hea, ht⟩ := h
  obtain ⟨x, hx, h1, rfl⟩ := copy_before hp.linked (⟨e, he, rfl⟩ : (g.copy nodes [] ν).Before e.start b)
  obtain ⟨hx0, hx1, hx2⟩ := (mem_among hp.linked).mp hx
  obtain ⟨p, hpn, h3, h4⟩ := (copy_rel hp hν (· = .inseparable) hx2.1).mp ⟨e, he, hea, ht⟩
  exact ⟨p, x.finish, hpn, hx2.1, h3, rfl, h4⟩

theorem copy_chain_inv (hp : g.Project start nodes) (hν : DistinctNames ν nodes) {u : Nat} (hu : u ∈ nodes) {b : Nat}
    (h : (g.copy nodes [] ν).InChain (ν u) b) : ∃ v, v ∈ nodes ∧ b = ν v ∧ g.InChain u v := by
  induction h with
  | refl => exact ⟨u, hu, rfl, Relation.ReflTransGen.refl⟩
  | tail _ h ih =>
    obtain ⟨v, hv, rfl, hi⟩ := ih
    obtain ⟨x, y, hx, hy, h1, h2, h3⟩ := copy_follows_inv hp hν h
    rw [hν v hv x hx h1] at hi
    exact ⟨y, hy, h2, hi.tail h3⟩

theorem copy_inChain (hp : g.Project start nodes) (hν : DistinctNames ν nodes) {u v : Nat} (hu : u ∈ nodes) (hv : v ∈ nodes) :
    (g.copy nodes [] ν).InChain (ν u) (ν v) ↔ g.InChain u v := by
  constructor
  · intro h
    obtain ⟨w, hw, he, hi⟩ := copy_chain_inv hp hν hu h
    rw [hν v hv w hw he]; exact hi
  · intro h
    clear hv
    induction h with
    | refl => exact Relation.ReflTransGen.refl
    | tail h1 h2 ih =>
      have hb := follows_closed hp.linked hp.closed hu h1
      have hc := follows_closed hp.linked hp.closed hu (h1.tail h2)
      exact ih.tail ((copy_follows hp hν hc hb).mpr h2)

theorem copy_chains (hp : g.Project start nodes) (hν : DistinctNames ν nodes) (hc : g.Chains) : (g.copy nodes [] ν).Chains := by
  have key := fun {a b : Nat} => copy_follows_inv (a := a) (b := b) hp hν
  constructor
  · intro a b v h1 h2
    obtain ⟨u, x, hu, hx, rfl, rfl, h3⟩ := key h1
    obtain ⟨w, y, hw, hy, rfl, he, h4⟩ := key h2
    rw [hν x hx y hy he] at h3
    rw [hc.oneParent _ _ _ h3 h4]
  · intro a v w h1 h2
    obtain ⟨u, x, hu, hx, rfl, rfl, h3⟩ := key h1
    obtain ⟨w, y, hw, hy, he, rfl, h4⟩ := key h2
    rw [hν u hu w hw he] at h3
    rw [hc.oneSon _ _ _ h3 h4]

/-! ### Deletion of a chain -/

theorem insepSon_eq_none (hl : g.Linked) {v : Nat} : g.insepSon v = none ↔ ∀ s, ¬ g.Follows v s := by
  constructor
  · rintro h s ⟨e, he, rfl, ht⟩
    have hf := hl.finish s e he
    subst hf
    have := (hl.both e).mp he
    unfold insepSon at h
    rw [List.head?_eq_none_iff, List.map_eq_nil_iff, List.filter_eq_nil_iff] at h
    exact h e this (by simpa using ht)
  · intro h
    cases hs : g.insepSon v with
    | none => rfl
    | some s => exact absurd (insepSon_follows hl hs) (h s)

theorem insepParent_eq_none {v : Nat} : g.insepParent v = none ↔ ∀ a, ¬ g.Follows a v := by
  constructor
  · rintro h s ⟨e, he, rfl, ht⟩
    unfold insepParent at h
    rw [List.head?_eq_none_iff, List.map_eq_nil_iff, List.filter_eq_nil_iff] at h
    exact h e he (by simpa using ht)
  · intro h
    cases hs : g.insepParent v with
    | none => rfl
    | some s =>
      unfold insepParent at hs
      rw [List.head?_map, Option.map_eq_some_iff] at hs
      obtain ⟨e, he, rfl⟩ := hs
      obtain ⟨h1, h2⟩ := List.mem_filter.mp (List.mem_of_mem_head? he)
      exact absurd ⟨e, h1, rfl, by simpa using h2⟩ (h e.start)

theorem getLast_isChain {R : Nat → Nat → Prop} {l : List Nat} (h : l.IsChain R) {a : Nat} (ha : a ∈ l.dropLast) :
    ∃ b ∈ l, R a b := by
  induction l with
  | nil => cases ha
  | cons x l ih =>
    cases l with
    | nil => cases ha
    | cons y l =>
      rw [List.isChain_cons_cons] at h
      rw [List.dropLast_cons_cons] at ha
      rcases List.mem_cons.mp ha with rfl | ha
      · exact ⟨y, by simp, h.1⟩
      · obtain ⟨b, hb, hr⟩ := ih h.2 ha
        exact ⟨b, List.mem_cons_of_mem _ hb, hr⟩

/-- Deleting the head of an inseparable chain deletes the works of the chain that are followed by another one. -/
theorem deleteWork_chain (hp : g.Project start nodes) (hc : g.Chains) {finish : Nat} (hfin : finish ∈ nodes) (hr : r ∈ nodes)
    (hhead : ∀ a, ¬ g.Follows a r) {s : Nat} (hson : g.Follows r s)
    (hd : ∀ v, g.InChain r v → g.OnlyDependencies v) (hstart : ¬ g.InChain r start)
    (hfinish : ∀ w, ¬ g.Follows finish w) :
    ∃ g' rest, g.deleteWork nodes.length start finish nodes r = some (some (g', rest)) ∧
      (∀ v, v ∈ rest ↔ v ∈ nodes ∧ ¬ (g.InChain r v ∧ ∃ w, g.Follows v w)) ∧
      g'.ProjectOf start rest ∧ Keeps g g' rest := by
  have hacF : ∀ x ∈ nodes, ¬ Relation.TransGen g.Follows x x := fun x hx h =>
    hp.acyclic x hx (Relation.TransGen.mono (fun a b ⟨e, he, hs, _⟩ => ⟨e, he, hs⟩) x x h)
  have hmem : ∀ v, v ∈ g.chainFrom nodes.length r ↔ g.InChain r v := fun v =>
    mem_chainFrom hp.linked hc hp.closed hacF hr
  obtain ⟨_, hpw⟩ := chainFrom_pairwise hp.linked nodes.length r
  have hch := chainFrom_isChain hp.linked nodes.length r
  have hinn : ∀ v, g.InChain r v → v ∈ nodes := fun v hv => follows_closed hp.linked hp.closed hr hv
  have hne := chainFrom_ne (g := g) nodes.length r
  have hhd := chainFrom_head (g := g) nodes.length r
  generalize hC : g.chainFrom nodes.length r = C at hmem hpw hch hne hhd
  have hnodup : C.Nodup := by
    refine List.Pairwise.imp_of_mem ?_ hpw
    rintro a b ha - hab rfl
    exact hacF a (hinn a ((hmem a).mp ha)) hab
  obtain ⟨D, x, rfl⟩ : ∃ D x, C = D ++ [x] := ⟨C.dropLast, C.getLast hne, (List.dropLast_append_getLast hne).symm⟩
  have hx : ∀ w, ¬ g.Follows x w := by
    intro w hw
    have hxw : w ∈ D ++ [x] := (hmem w).mpr (((hmem x).mp (by simp)).tail hw)
    rcases List.mem_append.mp hxw with h | h
    · have := (List.pairwise_append.mp hpw).2.2 w h x (by simp)
      exact hacF x (hinn x ((hmem x).mp (by simp))) ((Relation.TransGen.single hw).trans this)
    · rw [List.mem_singleton.mp h] at hw
      exact hacF x (hinn x ((hmem x).mp (by simp))) (.single hw)
  have hD : ∀ v, v ∈ D ↔ g.InChain r v ∧ ∃ w, g.Follows v w := by
    intro v
    constructor
    · intro hv
      refine ⟨(hmem v).mp (List.mem_append_left _ hv), ?_⟩
      obtain ⟨b, _, hb⟩ := getLast_isChain hch (a := v) (by simpa using hv)
      exact ⟨b, hb⟩
    · rintro ⟨h1, w, hw⟩
      rcases List.mem_append.mp ((hmem v).mpr h1) with h | h
      · exact h
      · rw [List.mem_singleton.mp h] at hw; exact absurd hw (hx w)
  have hrD : r ∈ D := (hD r).mpr ⟨Relation.ReflTransGen.refl, s, hson⟩
  have hDne : D ≠ [] := List.ne_nil_of_mem hrD
  have hparch : (D ++ [x]).reverse.IsChain (fun v p => g.insepParent v = some p) := by
    rw [List.isChain_reverse]
    exact hch.imp fun a b h => insepParent_of_follows hc h
  rw [List.reverse_append, List.reverse_singleton, List.singleton_append] at hparch
  have hlen : D.reverse.length ≤ nodes.length := by
    rw [List.length_reverse]
    refine ((List.nodup_append.mp hnodup).1.subperm fun v hv => ?_).length_le
    exact hinn v ((hD v).mp hv).1
  have hpx : g.insepParent x = D.reverse.head? := by
    cases hDr : D.reverse with
    | nil => exact absurd (List.reverse_eq_nil_iff.mp hDr) hDne
    | cons a M => rw [hDr, List.isChain_cons_cons] at hparch; rw [hparch.1]; rfl
  obtain ⟨g', h1, h2, h3⟩ := deleteUp_spec D.reverse nodes.length g nodes hlen hp.projectOf
    (fun v hv => by
      have hv := (hD v).mp (List.mem_reverse.mp hv)
      exact ⟨hinn v hv.1, fun h => hstart (h ▸ hv.1), hd v hv.1⟩)
    (by
      cases hDr : D.reverse with
      | nil => exact List.isChain_nil
      | cons a M => rw [hDr] at hparch; exact (List.isChain_cons_cons.mp hparch).2)
    (by
      intro y hy
      rw [List.getLast?_reverse] at hy
      have : y = r := by
        cases D with
        | nil => exact absurd rfl hDne
        | cons a M =>
          simp only [List.head?_cons, Option.some.injEq] at hy
          simp only [List.cons_append, List.head?_cons, Option.some.injEq] at hhd
          rw [← hy, hhd]
      rw [this]
      exact insepParent_eq_none.mpr hhead)
  have hfil : (nodes.filter fun v => v ∉ D.reverse) = nodes.filter fun v => v ∉ D := by simp
  rw [hfil] at h1 h2 h3
  have hrest : ∀ v, v ∈ nodes.filter (fun v => v ∉ D) ↔ v ∈ nodes ∧ ¬ (g.InChain r v ∧ ∃ w, g.Follows v w) := by
    intro v
    rw [List.mem_filter, decide_eq_true_eq, hD]
  refine ⟨g', _, ?_, hrest, h2, h3⟩
  unfold deleteWork
  have hson' : (g.insepSon r).isSome = true := by
    rw [Option.isSome_iff_ne_none, Ne, insepSon_eq_none hp.linked]
    exact fun h => h s hson
  rw [hson', insepParent_eq_none.mpr hhead]
  simp only [Option.isNone_none, Bool.and_self, if_true]
  rw [hC, List.getLast?_concat]
  simp only [Option.bind_some]
  rw [hpx, h1]
  simp only [Option.map_some]
  rw [if_pos]
  exact ⟨(hrest _).mpr ⟨hp.start_mem, fun h => hstart h.1⟩, (hrest _).mpr ⟨hfin, fun h => by
    obtain ⟨w, hw⟩ := h.2; exact hfinish w hw⟩⟩

end Sampo.Graph
