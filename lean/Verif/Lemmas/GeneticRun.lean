import Verif.Model.GeneticRun
import Verif.Lemmas.Contractor
import Verif.Lemmas.GeneticResources
import Verif.Lemmas.GeneticLoop
import Verif.Lemmas.Decode
import Verif.Spec.Genetic
import Verif.Spec.GeneticProject

/-! Lemmas about the genetic scheduler from the work graph on. -/

namespace Sampo.GeneticRun

open Genetic (Ind Problem MateDraw MutDraw)
open GeneticRes (Chrom contractorBorders)

/-! ### Indices -/

theorem index_eq {heads : List Nat} (hnd : heads.Nodup) {v i : Nat} : index heads v = some i ↔ heads[i]? = some v := by
  unfold index
  constructor
  · intro h
    split at h
    · rename_i hv
      rw [Option.some.injEq] at h
      subst h
      have hl := List.idxOf_lt_length_of_mem hv
      rw [List.getElem?_eq_getElem hl, List.getElem_idxOf hl]
    · cases h
  · intro h
    obtain ⟨hi, hv⟩ := List.getElem?_eq_some_iff.mp h
    rw [if_pos (by rw [← hv]; exact List.getElem_mem _), ← hv, hnd.idxOf_getElem]

theorem index_of_mem {heads : List Nat} {v : Nat} (hv : v ∈ heads) : ∃ i, index heads v = some i ∧ i < heads.length :=
  ⟨heads.idxOf v, by simp [index, hv], List.idxOf_lt_length_of_mem hv⟩

theorem mem_of_index {heads : List Nat} {v i : Nat} (h : index heads v = some i) : v ∈ heads := by
  unfold index at h
  split at h
  · assumption
  · cases h

theorem node_of_index {heads : List Nat} (hnd : heads.Nodup) {v i : Nat} (h : index heads v = some i) : node heads i = v := by
  rw [index_eq hnd] at h
  simp [node, List.getD_eq_getElem?_getD, h]

theorem index_lt {heads : List Nat} (hnd : heads.Nodup) {v i : Nat} (h : index heads v = some i) : i < heads.length := by
  rw [index_eq hnd] at h
  exact (List.getElem?_eq_some_iff.mp h).1

theorem index_node {heads : List Nat} (hnd : heads.Nodup) {i : Nat} (h : i < heads.length) :
    index heads (node heads i) = some i ∧ node heads i ∈ heads := by
  have : node heads i = heads[i] := by simp [node, List.getD_eq_getElem?_getD, h]
  rw [this, index_eq hnd]
  exact ⟨List.getElem?_eq_getElem h, List.getElem_mem _⟩

theorem index_inj {heads : List Nat} (hnd : heads.Nodup) {v w i : Nat} (h : index heads v = some i) (h' : index heads w = some i) :
    v = w := by
  rw [← node_of_index hnd h, node_of_index hnd h']

theorem mapM_index {heads : List Nat} {l r : List Nat} (h : l.mapM (index heads) = some r) :
    List.Forall₂ (fun v i => index heads v = some i) l r := by
  induction l generalizing r with
  | nil => simp at h; subst h; exact .nil
  | cons a l ih =>
    simp only [List.mapM_cons, Option.bind_eq_bind, Option.bind_eq_some_iff, Option.pure_def, Option.some.injEq] at h
    obtain ⟨b, hb, bs, hbs, rfl⟩ := h
    exact .cons hb (ih hbs)

theorem mapM_index_some {heads : List Nat} {l : List Nat} (h : ∀ v ∈ l, v ∈ heads) : ∃ r, l.mapM (index heads) = some r := by
  induction l with
  | nil => exact ⟨[], rfl⟩
  | cons a l ih =>
    obtain ⟨r, hr⟩ := ih fun v hv => h v (by simp [hv])
    obtain ⟨i, hi, -⟩ := index_of_mem (h a (by simp))
    exact ⟨i :: r, by simp only [List.mapM_cons, hi, hr, Option.bind_eq_bind, Option.bind_some]; rfl⟩

theorem forall₂_mem_right {heads l r : List Nat} (h : List.Forall₂ (fun v i => index heads v = some i) l r) (j : Nat) :
    j ∈ r ↔ ∃ v ∈ l, index heads v = some j := by
  induction h with
  | nil => simp
  | @cons a b l r hab _ ih =>
    simp only [List.mem_cons, ih, exists_eq_or_imp]
    constructor
    · rintro (rfl | ⟨v, hv, hj⟩)
      · exact .inl hab
      · exact .inr ⟨v, hv, hj⟩
    · rintro (h | ⟨v, hv, hj⟩)
      · rw [hab, Option.some.injEq] at h
        exact .inl h.symm
      · exact .inr ⟨v, hv, hj⟩

theorem relation_spec {heads : List Nat} (hnd : heads.Nodup) {d r : List (Nat × List Nat)} (h : relation heads d = some r)
    (i j : Nat) : j ∈ (r.lookup i).getD [] ↔
      ∃ a b, index heads a = some i ∧ index heads b = some j ∧ b ∈ (d.lookup a).getD [] := by
  induction d generalizing r with
  | nil => simp [relation] at h; subst h; simp
  | cons e d ih =>
    obtain ⟨a, l⟩ := e
    simp only [relation, List.mapM_cons, Option.bind_eq_bind, Option.bind_eq_some_iff, Option.pure_def, Option.some.injEq,
      Option.map_eq_some_iff] at h
    obtain ⟨x, ⟨ia, hia, il, hil, rfl⟩, r', hr', rfl⟩ := h
    have hfa := mapM_index hil
    have ih := ih (r := r') (by simp only [relation]; exact hr')
    simp only [List.lookup_cons]
    by_cases hi : i = ia
    · subst hi
      simp only [beq_self_eq_true, Option.getD_some]
      rw [forall₂_mem_right hfa]
      constructor
      · rintro ⟨b, hb, hj⟩
        exact ⟨a, b, hia, hj, by simpa using hb⟩
      · rintro ⟨a', b, ha', hj, hb⟩
        obtain rfl := index_inj hnd hia ha'
        exact ⟨b, by simpa using hb, hj⟩
    · have hne : (i == ia) = false := by simpa using hi
      simp only [hne]
      rw [ih]
      constructor
      · rintro ⟨a', b, ha', hj, hb⟩
        refine ⟨a', b, ha', hj, ?_⟩
        have : a' ≠ a := by rintro rfl; rw [hia, Option.some.injEq] at ha'; exact hi ha'.symm
        simpa [show (a' == a) = false by simpa using this] using hb
      · rintro ⟨a', b, ha', hj, hb⟩
        refine ⟨a', b, ha', hj, ?_⟩
        have : a' ≠ a := by rintro rfl; rw [hia, Option.some.injEq] at ha'; exact hi ha'.symm
        simpa [show (a' == a) = false by simpa using this] using hb

theorem relation_some {heads : List Nat} {d : List (Nat × List Nat)} (h : ∀ e ∈ d, e.1 ∈ heads ∧ ∀ b ∈ e.2, b ∈ heads) :
    ∃ r, relation heads d = some r := by
  induction d with
  | nil => exact ⟨[], rfl⟩
  | cons e d ih =>
    obtain ⟨r, hr⟩ := ih fun x hx => h x (by simp [hx])
    obtain ⟨i, hi, -⟩ := index_of_mem (h e (by simp)).1
    obtain ⟨l, hl⟩ := mapM_index_some (h e (by simp)).2
    unfold relation at hr ⊢
    exact ⟨(i, l) :: r, by simp only [List.mapM_cons, hi, hl, hr, Option.bind_eq_bind, Option.bind_some, Option.map_some]; rfl⟩

/-! ### Requirements -/

theorem limit_absent {f : WorkerReq → Int} {reqs : List WorkerReq} {k : Nat} (h : ∀ r ∈ reqs, r.kind ≠ k) : limit f reqs k = 0 := by
  unfold limit
  generalize (0 : Int) = x
  induction reqs generalizing x with
  | nil => rfl
  | cons r reqs ih =>
    rw [List.foldl_cons, if_neg (h r (by simp))]
    exact ih (fun r hr => h r (by simp [hr])) x

theorem limit_of_mem {f : WorkerReq → Int} {reqs : List WorkerReq} (hnd : (reqs.map (·.kind)).Nodup) {r : WorkerReq} (hr : r ∈ reqs) :
    limit f reqs r.kind = f r := by
  unfold limit
  generalize (0 : Int) = x
  induction reqs generalizing x with
  | nil => simp at hr
  | cons a reqs ih =>
    rw [List.map_cons, List.nodup_cons] at hnd
    rw [List.foldl_cons]
    rcases List.mem_cons.mp hr with rfl | hr
    · rw [if_pos rfl]
      have hno : ∀ b ∈ reqs, b.kind ≠ r.kind := fun b hb he => hnd.1 (he ▸ List.mem_map_of_mem hb)
      clear ih hnd hr
      generalize f r = y
      induction reqs generalizing y with
      | nil => rfl
      | cons b reqs ih =>
        rw [List.foldl_cons, if_neg (hno b (by simp))]
        exact ih (fun c hc => hno c (by simp [hc])) y
    · exact ih hnd.2 hr _

/-! ### Contractors -/

theorem dedupe_append (l acc : List Nat) (h : (acc ++ l).Nodup) :
    l.foldl (fun acc k => if k ∈ acc then acc else acc ++ [k]) acc = acc ++ l := by
  induction l generalizing acc with
  | nil => simp
  | cons a l ih =>
    have ha : a ∉ acc := fun hc => (List.nodup_append.mp h).2.2 a hc a (by simp) rfl
    rw [List.foldl_cons, if_neg ha, ih _ (by simpa using h)]
    simp

theorem dedupe_known (l acc : List Nat) (h : ∀ k ∈ l, k ∈ acc) :
    l.foldl (fun acc k => if k ∈ acc then acc else acc ++ [k]) acc = acc := by
  induction l with
  | nil => rfl
  | cons a l ih =>
    rw [List.foldl_cons, if_pos (h a (by simp))]
    exact ih fun k hk => h k (by simp [hk])

theorem _root_.Sampo.Numbered.kinds_eq {cs : List Contractor} {m : Nat} (h : Numbered cs m) :
    GeneticRes.kinds (cs.map (·.workers)) = List.range m := by
  unfold GeneticRes.kinds
  have hk := h.kinds
  cases cs with
  | nil => exact absurd rfl h.nonempty
  | cons c cs =>
    rw [List.map_cons, List.flatMap_cons, List.foldl_append, hk c (by simp), dedupe_append (List.range m) [] (by simpa using List.nodup_range),
      List.nil_append]
    apply dedupe_known
    intro k hk'
    simp only [List.mem_flatMap, List.mem_map] at hk'
    obtain ⟨s, ⟨d, hd, rfl⟩, w, hw, rfl⟩ := hk'
    rw [← hk d (by simp [hd])]
    exact List.mem_map_of_mem hw

theorem _root_.Sampo.Numbered.length {cs : List Contractor} {m : Nat} (h : Numbered cs m) :
    (GeneticRes.kinds (cs.map (·.workers))).length = m := by rw [h.kinds_eq, List.length_range]

theorem _root_.Sampo.Numbered.sound {cs : List Contractor} {m : Nat} (h : Numbered cs m) :
    (cs.map (·.id)).Nodup ∧ ∀ c ∈ cs, (c.workers.map (·.1)).Nodup := by
  constructor
  · have : cs.map (·.id) = List.range cs.length := by
      apply List.ext_getElem (by simp)
      intro i h1 h2
      simp only [List.getElem_map, List.getElem_range]
      exact h.ids i _ (List.getElem?_eq_getElem (by simpa using h1))
    rw [this]
    exact List.nodup_range
  · intro c hc
    rw [h.kinds c hc]
    exact List.nodup_range

theorem lookup_of_mem_nodup {ws : List (Nat × Int)} (h : (ws.map (·.1)).Nodup) {w : Nat × Int} (hw : w ∈ ws) :
    ws.lookup w.1 = some w.2 := by
  induction ws with
  | nil => simp at hw
  | cons a ws ih =>
    rw [List.map_cons, List.nodup_cons] at h
    rw [List.lookup_cons]
    rcases List.mem_cons.mp hw with rfl | hw
    · simp
    · have : w.1 ≠ a.1 := fun he => h.1 (he ▸ List.mem_map_of_mem hw)
      rw [show (w.1 == a.1) = false by simpa using this]
      exact ih h.2 hw

theorem lookup_of_range {ws : List (Nat × Int)} {m : Nat} (h : ws.map (·.1) = List.range m) (k : Nat) :
    ws.lookup k = (ws[k]?).map (·.2) := by
  have hnd : (ws.map (·.1)).Nodup := by rw [h]; exact List.nodup_range
  have hlen : ws.length = m := by rw [← List.length_map (f := (·.1)), h, List.length_range]
  cases hw : ws[k]? with
  | none =>
    rw [Option.map_none]
    cases hl : ws.lookup k with
    | none => rfl
    | some n =>
      have := List.mem_map_of_mem (f := (·.1)) (lookup_mem hl)
      rw [h, List.mem_range] at this
      rw [List.getElem?_eq_none_iff] at hw
      simp only at this
      omega
  | some w =>
    have hk : w.1 = k := by
      have h1 : (ws.map (·.1))[k]? = some w.1 := by rw [List.getElem?_map, hw]; rfl
      rw [h] at h1
      obtain ⟨h2, h3⟩ := List.getElem?_eq_some_iff.mp h1
      rw [List.getElem_range] at h3
      exact h3.symm
    rw [Option.map_some]
    rw [← hk]
    exact lookup_of_mem_nodup hnd (List.mem_of_getElem? hw)

theorem _root_.Sampo.Numbered.pool {cs : List Contractor} {m : Nat} (h : Numbered cs m) {c : Contractor} {i : Nat} (hc : cs[i]? = some c)
    {k : Nat} (hk : k < m) :
    getPool cs k i = some (contractorBorders (cs.map (·.workers)) i k) ∧
      c.workers.lookup k = some (contractorBorders (cs.map (·.workers)) i k) := by
  have hm := List.mem_of_getElem? hc
  have hid := h.ids i c hc
  have hp := getPool_of_mem h.sound.1 h.sound.2 hm k
  rw [hid] at hp
  rw [hp]
  have hw := h.kinds c hm
  have hlen : c.workers.length = m := by rw [← List.length_map (f := (·.1)), hw, List.length_range]
  rw [lookup_of_range hw]
  unfold contractorBorders
  rw [List.getElem?_map, hc]
  simp only [Option.map_some]
  rw [List.getElem?_eq_getElem (by omega)]
  simp

theorem getPool_known {cs : List Contractor} {k i : Nat} {n : Int} (h : getPool cs k i = some n) :
    ∃ c ∈ cs, c.id = i ∧ k ∈ c.workers.map (·.1) := by
  have inner : ∀ (id : Nat) (ws : List (Nat × Int)) (p : WPool), 
      ws.foldl (fun p w => fun name i => if name = w.1 ∧ i = id then some w.2 else p name i) p k i = some n →
      p k i = some n ∨ (id = i ∧ k ∈ ws.map (·.1)) := by
    intro id ws
    induction ws with
    | nil => intro p h; exact .inl h
    | cons w ws ih =>
      intro p h
      rw [List.foldl_cons] at h
      rcases ih _ h with h1 | ⟨h1, h2⟩
      · by_cases hc : k = w.1 ∧ i = id
        · exact .inr ⟨hc.2.symm, by simp [hc.1]⟩
        · rw [if_neg hc] at h1; exact .inl h1
      · exact .inr ⟨h1, by rw [List.map_cons]; exact List.mem_cons_of_mem _ h2⟩
  have outer : ∀ (cs : List Contractor) (p : WPool),
      cs.foldl (fun pool c => c.workers.foldl (fun p w => fun name id => if name = w.1 ∧ id = c.id then some w.2 else p name id) pool)
        p k i = some n → p k i = some n ∨ ∃ c ∈ cs, c.id = i ∧ k ∈ c.workers.map (·.1) := by
    intro cs
    induction cs with
    | nil => intro p h; exact .inl h
    | cons c cs ih =>
      intro p h
      rw [List.foldl_cons] at h
      rcases ih _ h with h1 | ⟨d, hd, h1⟩
      · rcases inner _ _ _ h1 with h2 | h2
        · exact .inl h2
        · exact .inr ⟨c, by simp, h2⟩
      · exact .inr ⟨d, by simp [hd], h1⟩
  rcases outer cs _ h with h1 | h1
  · cases h1
  · exact h1

theorem _root_.Sampo.Numbered.pool_inv {cs : List Contractor} {m : Nat} (h : Numbered cs m) {k i : Nat} {n : Int}
    (hp : getPool cs k i = some n) :
    i < cs.length ∧ k < m ∧ n = contractorBorders (cs.map (·.workers)) i k := by
  obtain ⟨c, hc, hid, hk⟩ := getPool_known hp
  rw [h.kinds c hc, List.mem_range] at hk
  obtain ⟨j, hj, hjc⟩ := List.mem_iff_getElem.mp hc
  have hj' : cs[j]? = some c := by rw [List.getElem?_eq_getElem hj, hjc]
  have := h.ids j c hj'
  obtain rfl : j = i := by omega
  refine ⟨hj, hk, ?_⟩
  rw [(h.pool hj' hk).1, Option.some.injEq] at hp
  exact hp.symm

end Sampo.GeneticRun
