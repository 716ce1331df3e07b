import Verif.Lemmas.RestructureGraph

/-! # Lemmas: where the edges of a restructured graph come from -/

namespace Sampo.Restructure

variable {G : OGraph} {opt : Bool} {v : Nat}

/-- The dictionary gives stages of the first work of the key. -/
def DictOk (d : Nat × Nat → Option NewId) : Prop := ∀ k x, d k = some x → x.work = k.1

theorem matchEdges_dictOk {prev cur : NewId} (hp : prev.work = v) (hc : cur.work = v) (es : List (OEdge × Bool)) :
    ∀ {d : Nat × Nat → Option NewId}, (∀ x ∈ es, (if x.2 then x.1.finish else x.1.start) = v) → DictOk d →
      DictOk (matchEdges prev cur es d) := by
  induction es with
  | nil => intro d _ h; exact h
  | cons x es ih =>
    intro d he h
    obtain ⟨e, b⟩ := x
    unfold matchEdges
    refine ih (fun y hy => he y (List.mem_cons_of_mem _ hy)) fun k y hy => ?_
    have h1 := he (e, b) List.mem_cons_self
    by_cases hk : k = if b then (e.finish, e.start) else (e.start, e.finish)
    · subst hk
      rw [Function.update_self, Option.some.injEq] at hy
      subst hy
      cases b <;> simp_all
    · rw [Function.update_of_ne hk] at hy
      exact h k y hy

/-- What the loop over the stages keeps. -/
structure StageInv (v : Nat) (s : Split) : Prop where
  cur : s.cur.work = v
  pending : ∀ x ∈ s.pending, (if x.2 then x.1.finish else x.1.start) = v
  dict : DictOk s.new.dict

theorem midStages_stageInv (wu : Unit_) (rest : List (ℚ × OEdge × Bool)) : ∀ {prev : ℚ} {s : Split},
    (∀ x ∈ rest, (if x.2.2 then x.2.1.finish else x.2.1.start) = v) → StageInv v s →
      StageInv v (midStages opt wu v prev rest s).1 := by
  induction rest with
  | nil => intro prev s _ h; exact h
  | cons x rest ih =>
    intro prev s he h
    obtain ⟨a, e, b⟩ := x
    have h1 : (if b then e.finish else e.start) = v := he (a, e, b) List.mem_cons_self
    unfold midStages
    split
    · refine ih (fun y hy => he y (List.mem_cons_of_mem _ hy)) ?_
      split
      · refine ⟨h.cur, fun y hy => ?_, h.dict⟩
        rcases List.mem_append.mp hy with hy | hy
        · exact h.pending y hy
        · rw [List.mem_singleton.mp hy]; exact h1
      · exact h
    · refine ih (fun y hy => he y (List.mem_cons_of_mem _ hy)) ⟨rfl, fun y hy => ?_, ?_⟩
      · simp only [nextStage] at hy
        split at hy
        · rw [List.mem_singleton.mp hy]; exact h1
        · cases hy
      · simp only [nextStage]
        split
        · exact matchEdges_dictOk h.cur rfl _ h.pending h.dict
        · exact h.dict

theorem split_dictOk {N : New} (hto : ∀ e ∈ G.edgesTo v, e.finish = v) (hfrom : ∀ e ∈ G.edgesFrom v, e.start = v)
    (h : DictOk N.dict) : DictOk (split G opt v N).dict := by
  have hkeys : ∀ x ∈ restructuring G opt v, (if x.2 then x.1.finish else x.1.start) = v := by
    intro x hx
    obtain ⟨e, b⟩ := x
    have key : ∀ (l : List OEdge) t b', (e, b) ∈ ofType l t b' → e ∈ l ∧ b = b' := by
      intro l t b' hm
      obtain ⟨e', he', hh⟩ := List.mem_map.mp hm
      obtain ⟨rfl, rfl⟩ := Prod.mk.inj hh
      exact ⟨(List.mem_filter.mp he').1, rfl⟩
    unfold restructuring at hx
    rcases List.mem_append.mp hx with hx | hx
    · rcases List.mem_append.mp hx with hx | hx
      · obtain ⟨h1, rfl⟩ := key _ _ _ hx; exact hfrom e h1
      · obtain ⟨h1, rfl⟩ := key _ _ _ hx; exact hto e h1
    · split at hx
      · rcases List.mem_append.mp hx with hx | hx
        · obtain ⟨h1, rfl⟩ := key _ _ _ hx; exact hto e h1
        · obtain ⟨h1, rfl⟩ := key _ _ _ hx; exact hfrom e h1
      · cases hx
  have hacc : ∀ x ∈ accums G opt (restructuring G opt v), (if x.2.2 then x.2.1.finish else x.2.1.start) = v := by
    intro x hx
    obtain ⟨y, hy, rfl⟩ := List.mem_map.mp ((accums_perm G opt _).mem_iff.mp hx)
    exact hkeys y hy
  unfold split
  split
  · exact h
  · rename_i a e rest heq
    rw [heq] at hacc
    have h1 := hacc _ List.mem_cons_self
    have inv : StageInv v (firstStage opt (G.wu v) v N a e) := by
      refine ⟨rfl, fun y hy => ?_, h⟩
      simp only [firstStage] at hy
      split at hy
      · rw [List.mem_singleton.mp hy]; exact h1
      · cases hy
    have := midStages_stageInv (opt := opt) (G.wu v) rest (prev := a) (fun y hy => hacc y (List.mem_cons_of_mem _ hy)) inv
    simp only [lastStage]
    split
    · exact matchEdges_dictOk this.cur rfl _ this.pending this.dict
    · exact this.dict

/-- The new edge `x` to a stage of work `v` is made for the edge `e`. -/
structure MadeFor (v : Nat) (e : OEdge) (x : NewEdge) : Prop where
  start : x.start.work = e.start
  finish : x.finish.work = v
  type : x.type = .inseparable → e.type = .inseparable
  lag : x.lag = 0 ∨ x.lag = ⌈e.lag⌉

private theorem pop_some {ids : List NewId} {d : Nat × Nat → Option NewId} (hd : DictOk d) {k : Nat × Nat}
    {r : NewId × (Nat × Nat → Option NewId)} (h : pop ids d k = some r) : r.1.work = k.1 ∧ DictOk r.2 := by
  simp only [pop, Option.bind_eq_some_iff] at h
  obtain ⟨x, hx, h⟩ := h
  split at h
  · cases h
    refine ⟨hd k x hx, fun k' y hy => ?_⟩
    by_cases hk : k' = k
    · subst hk; simp at hy
    · dsimp only at hy; rw [Function.update_of_ne hk] at hy; exact hd k' y hy
  · cases h

private theorem find_some {ids : List NewId} {x y : NewId} (h : find ids x = some y) : y = x := by
  unfold find at h
  split at h
  · exact (Option.some.inj h).symm
  · cases h

theorem fillEdge_madeFor {ids : List NewId} {fst : NewId} (hfst : fst.work = v) {r r' : Fill} {e : OEdge}
    (hfin : e.finish = v) (hd : DictOk r.dict) (h : fillEdge ids opt v fst r e = some r') :
    DictOk r'.dict ∧ ∀ x ∈ r'.all, x ∈ r.all ∨ MadeFor v e x := by
  have app : ∀ {r' : Fill} {l : List NewEdge}, r'.all.Perm (r.all ++ l) → (∀ x ∈ l, MadeFor v e x) →
      ∀ x ∈ r'.all, x ∈ r.all ∨ MadeFor v e x := fun hp hl x hx =>
    (List.mem_append.mp (hp.subset hx)).imp_right (hl x)
  unfold fillEdge at h
  obtain ⟨u, w, lag, ty⟩ := e
  dsimp only at hfin
  subst hfin
  cases ty <;> cases opt <;> simp only [Option.map_eq_some_iff, Option.bind_eq_some_iff] at h
  · obtain ⟨p, hp, rfl⟩ := h
    rw [find_some hp]
    exact ⟨hd, app (all_first _ _ _) (by rintro x hx; rw [List.mem_singleton.mp hx]; exact ⟨rfl, hfst, fun _ => rfl, .inl rfl⟩)⟩
  · obtain ⟨p, hp, rfl⟩ := h
    rw [find_some hp]
    exact ⟨hd, app (all_first _ _ _) (by rintro x hx; rw [List.mem_singleton.mp hx]; exact ⟨rfl, hfst, fun _ => rfl, .inl rfl⟩)⟩
  · obtain ⟨p, hp, rfl⟩ := h
    rw [find_some hp]
    exact ⟨hd, app (all_first _ _ _) (by rintro x hx; rw [List.mem_singleton.mp hx]; exact ⟨rfl, hfst, nofun, .inl rfl⟩)⟩
  · obtain ⟨q, hq, s, hs, p, hp, rfl⟩ := h
    obtain ⟨q1, q2⟩ := pop_some hd hq
    obtain ⟨s1, s2⟩ := pop_some q2 hs
    rw [find_some hp]
    refine ⟨s2, app (l := [⟨q.1, fst, 0, .finishStart⟩, ⟨.last u, s.1, 0, .finishStart⟩]) ?_ ?_⟩
    · refine (all_extra ⟨r.extra, r.first ++ [_], r.last, r.dict⟩ [_] _).trans ?_
      rw [show ∀ (a b : NewEdge), r.all ++ [a, b] = (r.all ++ [a]) ++ [b] by simp]
      exact (all_first r _ _).append_right _
    · intro x hx
      rcases List.mem_cons.mp hx with rfl | hx
      · exact ⟨q1, hfst, nofun, .inl rfl⟩
      · rw [List.mem_singleton.mp hx]; exact ⟨rfl, s1, nofun, .inl rfl⟩
  · obtain ⟨p, hp, rfl⟩ := h
    rw [find_some hp]
    exact ⟨hd, app (all_first _ _ _) (by rintro x hx; rw [List.mem_singleton.mp hx]; exact ⟨rfl, hfst, nofun, .inl rfl⟩)⟩
  · obtain ⟨p, hp, rfl⟩ := h
    obtain ⟨p1, p2⟩ := pop_some hd hp
    exact ⟨p2, app (all_first _ _ _) (by rintro x hx; rw [List.mem_singleton.mp hx]; exact ⟨p1, hfst, nofun, .inl rfl⟩)⟩
  · obtain ⟨p, hp, rfl⟩ := h
    rw [find_some hp]
    exact ⟨hd, app (all_last _ _ _) (by rintro x hx; rw [List.mem_singleton.mp hx]; exact ⟨rfl, rfl, nofun, .inl rfl⟩)⟩
  · obtain ⟨s, hs, p, hp, rfl⟩ := h
    obtain ⟨s1, s2⟩ := pop_some hd hs
    rw [find_some hp]
    exact ⟨s2, app (all_extra _ _ _) (by rintro x hx; rw [List.mem_singleton.mp hx]; exact ⟨rfl, s1, nofun, .inl rfl⟩)⟩
  · obtain ⟨p, hp, rfl⟩ := h
    rw [find_some hp]
    exact ⟨hd, app (all_first _ _ _) (by rintro x hx; rw [List.mem_singleton.mp hx]; exact ⟨rfl, hfst, nofun, .inr rfl⟩)⟩
  · obtain ⟨p, hp, rfl⟩ := h
    rw [find_some hp]
    exact ⟨hd, app (all_first _ _ _) (by rintro x hx; rw [List.mem_singleton.mp hx]; exact ⟨rfl, hfst, nofun, .inr rfl⟩)⟩

theorem fillEdges_madeFor {ids : List NewId} {fst : NewId} (hfst : fst.work = v) (es : List OEdge) :
    ∀ {r r' : Fill}, (∀ e ∈ es, e.finish = v) → DictOk r.dict → fillEdges ids opt v fst es r = some r' →
      DictOk r'.dict ∧ ∀ x ∈ r'.all, x ∈ r.all ∨ ∃ e ∈ es, MadeFor v e x := by
  induction es with
  | nil => intro r r' _ hd h; cases h; exact ⟨hd, fun x hx => .inl hx⟩
  | cons e es ih =>
    intro r r' he hd h
    obtain ⟨r₁, h1, h2⟩ := Option.bind_eq_some_iff.mp h
    obtain ⟨d1, e1⟩ := fillEdge_madeFor hfst (he e List.mem_cons_self) hd h1
    obtain ⟨d2, e2⟩ := ih (fun x hx => he x (List.mem_cons_of_mem _ hx)) d1 h2
    refine ⟨d2, fun x hx => ?_⟩
    rcases e2 x hx with hx | ⟨e', he', hm⟩
    · rcases e1 x hx with hx | hm
      · exact .inl hx
      · exact .inr ⟨e, List.mem_cons_self, hm⟩
    · exact .inr ⟨e', List.mem_cons_of_mem _ he', hm⟩

/-- Every new edge joins two successive stages of a work, or is made for an edge of the given graph. -/
structure Origin (G : OGraph) (done : List Nat) (N : New) : Prop where
  dict : DictOk N.dict
  works : ∀ n ∈ N.nodes, n.1.work ∈ done
  edges : ∀ x ∈ N.edges, (∃ v ∈ done, x ∈ chainEdges ((stagesOf N v).map (·.1))) ∨
    ∃ v ∈ done, ∃ e ∈ G.edgesTo v, MadeFor v e x

theorem Origin.step {done : List Nat} {N N' : New} (inv : Origin G done N) (hv : v ∉ done)
    (hto : ∀ e ∈ G.edgesTo v, e.finish = v) (hfrom : ∀ e ∈ G.edgesFrom v, e.start = v)
    (h : fill G opt v (split G opt v N) = some N') : Origin G (done ++ [v]) N' := by
  have hd := split_dictOk (opt := opt) hto hfrom inv.dict
  obtain ⟨S, k, hsp⟩ := split_spec (P := False) G opt v N False.elim False.elim
  have hok := hsp.workOk
  obtain ⟨r, hr, rfl⟩ := Option.map_eq_some_iff.mp h
  have hself : stagesOf (split G opt v N) v = S :=
    stagesOf_append_self hsp.nodes hok.work fun n hn he => hv (he ▸ inv.works n hn)
  have hother : ∀ {u : Nat}, u ∈ done → stagesOf (split G opt v N) u = stagesOf N u :=
    fun hu => stagesOf_append_other hsp.nodes hok.work fun he => hv (he ▸ hu)
  have hfst : (firstId (split G opt v N).ids v).work = v := by unfold firstId; split <;> rfl
  obtain ⟨d1, e1⟩ := fillEdges_madeFor hfst _ (r := ⟨[], [], [], _⟩) hto hd hr
  refine ⟨d1, fun n hn => ?_, fun x hx => ?_⟩
  · have hn : n ∈ (split G opt v N).nodes := hn
    rw [hsp.nodes] at hn
    rcases List.mem_append.mp hn with hn | hn
    · exact List.mem_append_left _ (inv.works n hn)
    · rw [hok.work n hn]; simp
  have hx' : x ∈ (split G opt v N).edges ∨ x ∈ r.all := by
    have hx : x ∈ (split G opt v N).edges ++ r.extra ++ r.first ++ r.last := hx
    simp only [List.mem_append, Fill.all] at hx ⊢
    tauto
  rcases hx' with hx | hx
  · rw [hsp.edges] at hx
    rcases List.mem_append.mp hx with hx | hx
    · rcases inv.edges x hx with ⟨w, hw, hh⟩ | ⟨w, hw, hh⟩
      · exact .inl ⟨w, List.mem_append_left _ hw, (hother hw).symm ▸ hh⟩
      · exact .inr ⟨w, List.mem_append_left _ hw, hh⟩
    · exact .inl ⟨v, by simp, hself.symm ▸ hx⟩
  · rcases e1 x hx with hx | ⟨e, he, hm⟩
    · cases hx
    · exact .inr ⟨v, by simp, e, he, hm⟩

theorem restructure_origin {nodes : List Nat} {N : New} (hn : nodes.Nodup)
    (hto : ∀ v ∈ nodes, ∀ e ∈ G.edgesTo v, e.finish = v)
    (hfrom : ∀ v ∈ nodes, ∀ e ∈ G.edgesFrom v, e.start = v) (h : restructure G opt nodes = some N) : Origin G nodes N := by
  have key : ∀ (vs : List Nat) {done : List Nat} {N N' : New}, (done ++ vs).Nodup → (∀ v ∈ vs, v ∈ nodes) → Origin G done N →
      restructureFrom G opt vs N = some N' → Origin G (done ++ vs) N' := by
    intro vs
    induction vs with
    | nil => intro done N N' _ _ inv h; cases h; rw [List.append_nil]; exact inv
    | cons v vs ih =>
      intro done N N' hnd hm inv h
      obtain ⟨N₁, h1, h2⟩ := Option.bind_eq_some_iff.mp h
      have hv := hm v List.mem_cons_self
      have hvd : v ∉ done := fun hd => (List.nodup_append.mp hnd).2.2 v hd v List.mem_cons_self rfl
      have := ih (by simpa using hnd) (fun x hx => hm x (List.mem_cons_of_mem _ hx)) (inv.step hvd (hto v hv) (hfrom v hv) h1) h2
      simpa using this
  have := key nodes (done := []) (by simpa using hn) (fun _ h => h)
    ⟨fun k x hx => by simp at hx, by simp, fun x hx => by simp at hx⟩ h
  simpa using this

end Sampo.Restructure
