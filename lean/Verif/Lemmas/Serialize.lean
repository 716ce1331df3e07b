import Verif.Lemmas.Traverse

namespace Sampo.Graph

variable {g : Graph}

theorem addParents_eq (hl : g.Linked) (g0 : Graph) (v : Nat) :
    g0.addParents v ((g.edgesTo v).map fun e => (e.start, e.lag, e.type)) = (g.edgesTo v).foldl addEdge g0 := by
  unfold addParents
  rw [List.foldl_map]
  apply List.foldl_ext
  intro a e he
  have := hl.finish v e he
  subst this
  rfl

theorem rebuild_eq (hl : g.Linked) : ∀ (rest known : List Nat) (g0 : Graph),
    (∀ before v after, rest = before ++ v :: after → ∀ p, g.Before p v → p ∈ known ++ before) →
    rebuild (g.serialize rest) known g0 = some (known ++ rest, (rest.flatMap g.edgesTo).foldl addEdge g0)
  | [], known, g0, _ => by simp [serialize, rebuild]
  | v :: rest, known, g0, h => by
    unfold serialize
    rw [List.map_cons, rebuild]
    rw [if_pos]
    · have := rebuild_eq hl rest (known ++ [v]) (g0.addParents v ((g.edgesTo v).map fun e => (e.start, e.lag, e.type))) (by
        intro before w after heq p hp
        have := h (v :: before) w after (by rw [heq]; rfl) p hp
        simpa using this)
      unfold serialize at this
      rw [this, addParents_eq hl, List.flatMap_cons, List.foldl_append]
      simp
    · rw [List.all_eq_true]
      intro x hx
      obtain ⟨e, he, rfl⟩ := List.mem_map.1 hx
      have := h [] v rest rfl e.start ⟨e, he, rfl⟩
      simpa using this

theorem flatMap_filter_finish (hl : g.Linked) : ∀ {order : List Nat}, order.Nodup → ∀ v,
    ((order.flatMap g.edgesTo).filter fun e => e.finish = v) = if v ∈ order then g.edgesTo v else []
  | [], _, v => by simp
  | a :: l, hn, v => by
    rw [List.nodup_cons] at hn
    rw [List.flatMap_cons, List.filter_append, flatMap_filter_finish hl hn.2 v]
    by_cases hav : a = v
    · subst hav
      rw [if_neg hn.1, if_pos List.mem_cons_self, List.append_nil]
      exact List.filter_eq_self.2 fun e he => by simpa using hl.finish a e he
    · have : (g.edgesTo a).filter (fun e => decide (e.finish = v)) = [] := by
        rw [List.filter_eq_nil_iff]
        intro e he
        rw [hl.finish a e he]
        simpa using hav
      rw [this, List.nil_append]
      have : v ∈ a :: l ↔ v ∈ l := by
        rw [List.mem_cons]
        exact ⟨fun h => h.resolve_left fun h => hav h.symm, Or.inr⟩
      by_cases hv : v ∈ l
      · rw [if_pos hv, if_pos (this.2 hv)]
      · rw [if_neg hv, if_neg fun h => hv (this.1 h)]

theorem count_flatMap (hl : g.Linked) {order : List Nat} (hn : order.Nodup) (e : Edge) :
    (order.flatMap g.edgesTo).count e = if e.finish ∈ order then (g.edgesTo e.finish).count e else 0 := by
  have h1 : (order.flatMap g.edgesTo).count e = ((order.flatMap g.edgesTo).filter fun x => x.finish = e.finish).count e := by
    rw [List.count_filter (by simp)]
  rw [h1, flatMap_filter_finish hl hn]
  split <;> simp

theorem edgesFrom_perm (hl : g.Linked) {order : List Nat} (hn : order.Nodup) (hcl : g.ClosedIn order) {v : Nat}
    (hv : v ∈ order) : ((ofEdges (order.flatMap g.edgesTo)).edgesFrom v).Perm (g.edgesFrom v) := by
  rw [ofEdges_from, List.perm_iff_count]
  intro e
  by_cases hs : e.start = v
  · rw [List.count_filter (by simpa using hs), count_flatMap hl hn]
    split
    · rw [hl.count e, hs]
    · rename_i hf
      symm
      rw [List.count_eq_zero]
      intro he
      exact hf ((hcl v hv).2 e he)
  · rw [List.count_eq_zero_of_not_mem, List.count_eq_zero_of_not_mem]
    · exact fun he => hs (hl.start v e he)
    · intro he
      rw [List.mem_filter] at he
      exact hs (by simpa using he.2)

theorem edgesTo_eq (hl : g.Linked) {order : List Nat} (hn : order.Nodup) (v : Nat) :
    (ofEdges (order.flatMap g.edgesTo)).edgesTo v = if v ∈ order then g.edgesTo v else [] := by
  rw [ofEdges_to, flatMap_filter_finish hl hn]

end Sampo.Graph
