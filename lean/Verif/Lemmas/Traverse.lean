import Verif.Lemmas.Graph
import Verif.Lemmas.Toposort

namespace Sampo.Graph

variable {g : Graph}

/-- What is known about a traversal from `s` with the given queue and visited works. -/
structure TravInv (g : Graph) (s : Nat) (queue vis : List Nat) : Prop where
  once : vis.Nodup
  parents : ∀ before v after, vis = before ++ v :: after → ∀ e ∈ g.edgesTo v, e.start ∈ before
  children : ∀ v ∈ vis, ∀ e ∈ g.edgesFrom v, e.finish ∈ vis ∨ e.finish ∈ queue
  reachV : ∀ v ∈ vis, g.Reaches s v
  reachQ : ∀ v ∈ queue, g.Reaches s v
  start : s ∈ vis ∨ s ∈ queue

/-- All predecessors are visited. -/
def Ready (g : Graph) (vis : List Nat) (v : Nat) : Prop := ∀ e ∈ g.edgesTo v, e.start ∈ vis

theorem not_any_iff {vis : List Nat} {v : Nat} :
    ((g.edgesTo v).any fun e => !vis.contains e.start) = false ↔ g.Ready vis v := by
  unfold Ready
  rw [List.any_eq_false]
  simp

theorem any_iff {vis : List Nat} {v : Nat} :
    ((g.edgesTo v).any fun e => !vis.contains e.start) = true ↔ ¬ g.Ready vis v := by
  rw [← not_any_iff, Bool.not_eq_false]

theorem before_of_from (hl : g.Linked) {v : Nat} {e : Edge} (he : e ∈ g.edgesFrom v) : g.Before v e.finish := by
  have hs := hl.start v e he
  exact ⟨e, (hl.both e).2 (by rw [hs]; exact he), hs⟩

theorem from_of_before (hl : g.Linked) {p v : Nat} (h : g.Before p v) : ∃ e ∈ g.edgesFrom p, e.finish = v := by
  obtain ⟨e, he, rfl⟩ := h
  have hf := hl.finish v e he
  exact ⟨e, (hl.both e).1 (by rw [hf]; exact he), hf⟩

theorem TravInv.defer {s v : Nat} {queue vis : List Nat} (h : TravInv g s (v :: queue) vis) :
    TravInv g s (queue ++ [v]) vis := by
  have hq : ∀ x, x ∈ queue ++ [v] ↔ x ∈ v :: queue := by
    intro x
    rw [List.mem_append, List.mem_singleton, List.mem_cons]
    tauto
  exact ⟨h.once, h.parents, fun a ha e he => by rw [hq]; exact h.children a ha e he, h.reachV,
    fun x hx => h.reachQ x ((hq x).1 hx), by rw [hq]; exact h.start⟩

theorem TravInv.skip {s v : Nat} {queue vis : List Nat} (h : TravInv g s (v :: queue) vis) (hv : v ∈ vis) :
    TravInv g s queue vis := by
  have hq : ∀ x, x ∈ vis ∨ x ∈ v :: queue → x ∈ vis ∨ x ∈ queue := by
    intro x hx
    rw [List.mem_cons] at hx
    rcases hx with hx | rfl | hx
    · exact Or.inl hx
    · exact Or.inl hv
    · exact Or.inr hx
  exact ⟨h.once, h.parents, fun a ha e he => hq _ (h.children a ha e he), h.reachV,
    fun x hx => h.reachQ x (List.mem_cons_of_mem _ hx), hq _ h.start⟩

theorem TravInv.visit (hl : g.Linked) {s v : Nat} {queue vis : List Nat} (h : TravInv g s (v :: queue) vis) (hv : v ∉ vis)
    (hr : g.Ready vis v) : TravInv g s (queue ++ (g.edgesFrom v).map (·.finish)) (vis ++ [v]) := by
  have hq : ∀ x, x ∈ vis ∨ x ∈ v :: queue → x ∈ vis ++ [v] ∨ x ∈ queue ++ (g.edgesFrom v).map (·.finish) := by
    intro x hx
    rw [List.mem_append, List.mem_append, List.mem_singleton]
    rw [List.mem_cons] at hx
    tauto
  refine ⟨?_, ?_, ?_, ?_, ?_, hq _ h.start⟩
  · rw [List.nodup_append]
    refine ⟨h.once, List.nodup_singleton v, ?_⟩
    intro a ha b hb hab
    rw [List.mem_singleton] at hb
    rw [hab, hb] at ha
    exact hv ha
  · intro before x after heq e he
    rcases List.append_eq_append_iff.1 heq with ⟨a', h1, h2⟩ | ⟨c', h1, h2⟩
    · cases a' with
      | nil =>
        simp only [List.nil_append, List.cons.injEq] at h2
        rw [h1, List.append_nil]
        rw [← h2.1] at he
        exact hr e he
      | cons a a' =>
        exfalso
        have := congrArg List.length h2
        simp at this
    · cases c' with
      | nil =>
        simp only [List.nil_append, List.cons.injEq] at h2
        rw [List.append_nil] at h1
        rw [← h1]
        rw [h2.1] at he
        exact hr e he
      | cons a c' =>
        rw [List.cons_append, List.cons.injEq] at h2
        obtain ⟨rfl, -⟩ := h2
        exact h.parents before x c' h1 e he
  · intro a ha e he
    rw [List.mem_append, List.mem_singleton] at ha
    rcases ha with ha | rfl
    · exact hq _ (h.children a ha e he)
    · right
      rw [List.mem_append, List.mem_map]
      exact Or.inr ⟨e, he, rfl⟩
  · intro x hx
    rw [List.mem_append, List.mem_singleton] at hx
    rcases hx with hx | rfl
    · exact h.reachV x hx
    · exact h.reachQ x List.mem_cons_self
  · intro x hx
    rw [List.mem_append, List.mem_map] at hx
    rcases hx with hx | ⟨e, he, rfl⟩
    · exact h.reachQ x (List.mem_cons_of_mem _ hx)
    · exact Relation.ReflTransGen.tail (h.reachQ v List.mem_cons_self) (before_of_from hl he)

theorem traverseLoop_sound (hl : g.Linked) {s : Nat} : ∀ (fuel : Nat) (queue vis out : List Nat),
    TravInv g s queue vis → g.traverseLoop fuel queue vis = some out → TravInv g s [] out
  | 0, queue, vis, out, inv, h => by
    unfold traverseLoop at h
    split at h
    · rename_i he
      have : queue = [] := by simpa using he
      subst this
      rw [Option.some.injEq] at h
      rw [← h]
      exact inv
    · simp at h
  | fuel + 1, [], vis, out, inv, h => by
    unfold traverseLoop at h
    rw [Option.some.injEq] at h
    rw [← h]
    exact inv
  | fuel + 1, v :: queue, vis, out, inv, h => by
    unfold traverseLoop at h
    by_cases hr : g.Ready vis v
    · rw [if_neg (by rw [not_any_iff.2 hr]; simp)] at h
      by_cases hv : v ∈ vis
      · rw [if_pos (by simpa using hv)] at h
        exact traverseLoop_sound hl fuel _ _ _ (inv.skip hv) h
      · rw [if_neg (by simpa using hv)] at h
        exact traverseLoop_sound hl fuel _ _ _ (inv.visit hl hv hr) h
    · rw [if_pos (any_iff.2 hr)] at h
      exact traverseLoop_sound hl fuel _ _ _ inv.defer h

theorem travInv_init (s : Nat) : TravInv g s [s] [] :=
  ⟨List.nodup_nil, by intro b v a h; simp at h, by simp, by simp,
    by intro v hv; rw [List.mem_singleton.1 hv]; exact Relation.ReflTransGen.refl, by simp⟩

theorem TravInv.mem_of_reaches (hl : g.Linked) {s : Nat} {out : List Nat} (h : TravInv g s [] out) {v : Nat}
    (hv : g.Reaches s v) : v ∈ out := by
  induction hv with
  | refl => exact h.start.elim id fun hh => absurd hh List.not_mem_nil
  | tail _ hstep ih =>
    obtain ⟨e, he, hf⟩ := from_of_before hl hstep
    rw [← hf]
    exact (h.children _ ih e he).elim id fun hh => absurd hh List.not_mem_nil

/-! ### Termination -/

/-- Sum of out-degrees. -/
def outDeg (g : Graph) (l : List Nat) : Nat := (l.map fun v => (g.edgesFrom v).length).sum

/-- Works still to visit. -/
def todo (nodes vis : List Nat) : List Nat := nodes.filter fun v => v ∉ vis

theorem outDeg_todo {nodes vis : List Nat} {v : Nat} (hn : nodes.Nodup) (hv : v ∈ nodes) (hvv : v ∉ vis) :
    g.outDeg (todo nodes vis) = g.outDeg (todo nodes (vis ++ [v])) + (g.edgesFrom v).length := by
  unfold outDeg todo
  induction nodes with
  | nil => simp at hv
  | cons a l ih =>
    rw [List.nodup_cons] at hn
    rw [List.mem_cons] at hv
    by_cases hav : a = v
    · subst hav
      rw [List.filter_cons_of_pos (by simpa using hvv), List.filter_cons_of_neg (by simp)]
      have : (l.filter fun x => decide (x ∉ vis ++ [a])) = l.filter fun x => decide (x ∉ vis) := by
        apply List.filter_congr
        intro x hx
        have : x ≠ a := fun h => hn.1 (h ▸ hx)
        simp [this]
      rw [this, List.map_cons, List.sum_cons]
      omega
    · have hvl : v ∈ l := hv.resolve_left fun h => hav h.symm
      have := ih hn.2 hvl
      by_cases ha : a ∈ vis
      · rw [List.filter_cons_of_neg (by simpa using ha), List.filter_cons_of_neg (by simp [ha])]
        exact this
      · rw [List.filter_cons_of_pos (by simpa using ha), List.filter_cons_of_pos (by simp [ha, hav]), List.map_cons,
          List.map_cons, List.sum_cons, List.sum_cons]
        omega

/-- If the queue is not empty then some element of it is ready. -/
theorem exists_ready {s : Nat} {nodes queue vis : List Nat} (hp : g.Project s nodes) (inv : TravInv g s queue vis)
    (hne : queue ≠ []) : ∃ v ∈ queue, g.Ready vis v := by
  classical
  have hmem : ∀ v, g.Reaches s v → v ∈ nodes := by
    intro v hv
    induction hv with
    | refl => exact hp.start_mem
    | tail _ hstep ih =>
      obtain ⟨e, he, hf⟩ := from_of_before hp.linked hstep
      rw [← hf]
      exact (hp.closed _ ih).2 e he
  obtain ⟨q, hq⟩ := List.exists_mem_of_ne_nil _ hne
  by_cases hqr : g.Ready vis q
  · exact ⟨q, hq, hqr⟩
  by_contra hno
  push Not at hno
  have hbad : ∀ x ∈ todo nodes vis, ∃ y ∈ todo nodes vis, g.Before y x := by
    intro x hx
    unfold todo at hx
    rw [List.mem_filter] at hx
    have hxv : x ∉ vis := by simpa using hx.2
    have hnr : ¬ g.Ready vis x := by
      intro hr
      have hxq : x ∈ queue := by
        rcases Relation.ReflTransGen.cases_tail (hp.reach x hx.1) with h1 | ⟨c, -, h2⟩
        · rw [h1] at hxv ⊢
          exact inv.start.resolve_left hxv
        · have hcv : c ∈ vis := by
            obtain ⟨e, he, rfl⟩ := h2
            exact hr e he
          obtain ⟨e, he, rfl⟩ := from_of_before hp.linked h2
          exact (inv.children c hcv e he).resolve_left hxv
      exact hno x hxq hr
    unfold Ready at hnr
    push Not at hnr
    obtain ⟨e, he, hev⟩ := hnr
    exact ⟨e.start, List.mem_filter.2 ⟨(hp.closed x hx.1).1 e he, by simpa using hev⟩, e, he, rfl⟩
  have hq' : ∃ y, y ∈ todo nodes vis := by
    unfold Ready at hqr
    push Not at hqr
    obtain ⟨e, he, hev⟩ := hqr
    exact ⟨e.start, List.mem_filter.2 ⟨(hp.closed q (hmem q (inv.reachQ q hq))).1 e he, by simpa using hev⟩⟩
  obtain ⟨y, hy⟩ := hq'
  obtain ⟨x, hx, hcyc⟩ := cycle_of_successors (r := fun a b => g.Before b a) (List.ne_nil_of_mem hy) hbad
  exact hp.acyclic x (List.mem_filter.1 hx).1 (Relation.transGen_swap.1 hcyc)

/-- Rotating the queue to the first ready element. -/
theorem traverseLoop_rotate {vis : List Nat} : ∀ (pre : List Nat) (fuel : Nat) (v : Nat) (post : List Nat),
    (∀ x ∈ pre, ¬ g.Ready vis x) → g.traverseLoop (pre.length + fuel) (pre ++ v :: post) vis
      = g.traverseLoop fuel (v :: post ++ pre) vis
  | [], fuel, v, post, _ => by simp
  | a :: pre, fuel, v, post, h => by
    have : (a :: pre).length + fuel = (pre.length + fuel) + 1 := by simp; omega
    rw [this, List.cons_append]
    conv_lhs => unfold traverseLoop
    rw [if_pos (any_iff.2 (h a List.mem_cons_self))]
    have := traverseLoop_rotate pre fuel v (post ++ [a]) fun x hx => h x (List.mem_cons_of_mem _ hx)
    rw [List.append_assoc, List.cons_append, this]
    simp

theorem traverseLoop_mono : ∀ (fuel : Nat) (queue vis out : List Nat), g.traverseLoop fuel queue vis = some out →
    ∀ k, g.traverseLoop (fuel + k) queue vis = some out
  | 0, queue, vis, out, h, k => by
    unfold traverseLoop at h
    split at h
    · rename_i he
      have : queue = [] := by simpa using he
      subst this
      cases k with
      | zero => simpa [traverseLoop] using h
      | succ k => simpa [traverseLoop] using h
    · simp at h
  | fuel + 1, [], vis, out, h, k => by
    have : fuel + 1 + k = (fuel + k) + 1 := by omega
    rw [this]
    simpa [traverseLoop] using h
  | fuel + 1, v :: queue, vis, out, h, k => by
    have : fuel + 1 + k = (fuel + k) + 1 := by omega
    rw [this]
    unfold traverseLoop at h ⊢
    by_cases hr : g.Ready vis v
    · rw [if_neg (by rw [not_any_iff.2 hr]; simp)] at h ⊢
      by_cases hv : v ∈ vis
      · rw [if_pos (by simpa using hv)] at h ⊢
        exact traverseLoop_mono fuel _ _ _ h k
      · rw [if_neg (by simpa using hv)] at h ⊢
        exact traverseLoop_mono fuel _ _ _ h k
    · rw [if_pos (any_iff.2 hr)] at h ⊢
      exact traverseLoop_mono fuel _ _ _ h k

theorem exists_first_ready {vis : List Nat} {queue : List Nat} (h : ∃ v ∈ queue, g.Ready vis v) :
    ∃ pre v post, queue = pre ++ v :: post ∧ (∀ x ∈ pre, ¬ g.Ready vis x) ∧ g.Ready vis v := by
  induction queue with
  | nil => obtain ⟨v, hv, -⟩ := h; simp at hv
  | cons a l ih =>
    by_cases ha : g.Ready vis a
    · exact ⟨[], a, l, rfl, by simp, ha⟩
    · obtain ⟨v, hv, hr⟩ := h
      rw [List.mem_cons] at hv
      rcases hv with rfl | hv
      · exact absurd hr ha
      · obtain ⟨pre, w, post, h1, h2, h3⟩ := ih ⟨v, hv, hr⟩
        refine ⟨a :: pre, w, post, by rw [h1]; rfl, ?_, h3⟩
        intro x hx
        rw [List.mem_cons] at hx
        rcases hx with rfl | hx
        · exact ha
        · exact h2 x hx

theorem TravInv.rotate {s v : Nat} {pre post vis : List Nat} (h : TravInv g s (pre ++ v :: post) vis) :
    TravInv g s (v :: (post ++ pre)) vis := by
  have hq : ∀ x, x ∈ v :: (post ++ pre) ↔ x ∈ pre ++ v :: post := by
    intro x
    simp only [List.mem_append, List.mem_cons]
    tauto
  exact ⟨h.once, h.parents, fun a ha e he => by rw [hq]; exact h.children a ha e he, h.reachV,
    fun x hx => h.reachQ x ((hq x).1 hx), by rw [hq]; exact h.start⟩

theorem traverseLoop_total {s : Nat} {nodes : List Nat} (hp : g.Project s nodes) : ∀ (m : Nat) (queue vis : List Nat),
    TravInv g s queue vis → queue.length + g.outDeg (todo nodes vis) ≤ m →
    ∃ out, g.traverseLoop (m * m) queue vis = some out
  | 0, queue, vis, inv, hm => by
    have : queue = [] := List.length_eq_zero_iff.1 (by omega)
    subst this
    exact ⟨vis, by simp [traverseLoop]⟩
  | m + 1, queue, vis, inv, hm => by
    by_cases hq : queue = []
    · subst hq
      have : (m + 1) * (m + 1) = (m * m + 2 * m) + 1 := by ring
      rw [this]
      exact ⟨vis, by simp [traverseLoop]⟩
    obtain ⟨pre, v, post, rfl, hpre, hr⟩ := exists_first_ready (exists_ready hp inv hq)
    have hlen : pre.length + 1 ≤ m + 1 := by
      rw [List.length_append, List.length_cons] at hm
      omega
    have inv' := inv.rotate
    have hmem : v ∈ nodes := by
      have hv := inv'.reachQ v List.mem_cons_self
      have aux : ∀ x, g.Reaches s x → x ∈ nodes := by
        intro x hx
        induction hx with
        | refl => exact hp.start_mem
        | tail _ hstep ih =>
          obtain ⟨e, he, hf⟩ := from_of_before hp.linked hstep
          rw [← hf]
          exact (hp.closed _ ih).2 e he
      exact aux v hv
    have hfuel : (m + 1) * (m + 1) = pre.length + ((m * m + (2 * m - pre.length)) + 1) := by
      have : (m + 1) * (m + 1) = m * m + 2 * m + 1 := by ring
      omega
    rw [hfuel, traverseLoop_rotate pre _ v post hpre, List.cons_append]
    conv => arg 1; ext out; lhs; unfold traverseLoop
    rw [if_neg (by rw [not_any_iff.2 hr]; simp)]
    by_cases hv : v ∈ vis
    · rw [if_pos (by simpa using hv)]
      obtain ⟨out, ho⟩ := traverseLoop_total hp m (post ++ pre) vis (inv'.skip hv) (by
        rw [List.length_append, List.length_cons] at hm
        rw [List.length_append]
        omega)
      exact ⟨out, traverseLoop_mono _ _ _ _ ho _⟩
    · rw [if_neg (by simpa using hv)]
      obtain ⟨out, ho⟩ := traverseLoop_total hp m _ _ (inv'.visit hp.linked hv hr) (by
        rw [List.length_append, List.length_cons] at hm
        rw [List.length_append, List.length_append, List.length_map]
        have := outDeg_todo (g := g) hp.once hmem hv
        omega)
      exact ⟨out, traverseLoop_mono _ _ _ _ ho _⟩

/-- In a list in which every work comes after all works with an edge to it, it comes after all works it can be reached
from. -/
theorem before_of_parents_first {order : List Nat}
    (h : ∀ before v after, order = before ++ v :: after → ∀ p, g.Before p v → p ∈ before) {a v : Nat}
    (hav : Relation.TransGen g.Before a v) : ∀ before after, order = before ++ v :: after → a ∈ before := by
  induction hav with
  | single h1 => exact fun before after heq => h before _ after heq _ h1
  | tail _ h1 ih =>
    intro before after heq
    have hb := h before _ after heq _ h1
    obtain ⟨b1, b2, rfl⟩ := List.append_of_mem hb
    exact List.mem_append_left _ (ih b1 _ (by rw [heq, List.append_assoc, List.cons_append]))

theorem acyclic_of_parents_first {order : List Nat} (hn : order.Nodup)
    (h : ∀ before v after, order = before ++ v :: after → ∀ p, g.Before p v → p ∈ before) :
    ∀ v ∈ order, ¬ Relation.TransGen g.Before v v := by
  intro v hv hcyc
  obtain ⟨before, after, rfl⟩ := List.append_of_mem hv
  have := before_of_parents_first h hcyc before after rfl
  rw [List.nodup_append] at hn
  exact hn.2.2 v this v List.mem_cons_self rfl

/-- The traversal begins with the start. -/
theorem head_of_parents_first {order : List Nat} {s : Nat} (hs : s ∈ order)
    (hr : ∀ v ∈ order, g.Reaches s v)
    (h : ∀ before v after, order = before ++ v :: after → ∀ p, g.Before p v → p ∈ before) :
    ∃ rest, order = s :: rest := by
  cases order with
  | nil => simp at hs
  | cons x rest =>
    rcases Relation.ReflTransGen.cases_tail (hr x List.mem_cons_self) with h1 | ⟨c, -, h2⟩
    · exact ⟨rest, by rw [h1]⟩
    · exact absurd (h [] x rest rfl c h2) List.not_mem_nil

/-- The work that all others lead to comes last. -/
theorem last_of_parents_first {order : List Nat} {f : Nat} (hf : f ∈ order) (hn : order.Nodup)
    (hr : ∀ v ∈ order, g.Reaches v f)
    (h : ∀ before v after, order = before ++ v :: after → ∀ p, g.Before p v → p ∈ before) :
    order.getLast? = some f := by
  obtain ⟨before, after, rfl⟩ := List.append_of_mem hf
  have : after = [] := by
    rw [List.eq_nil_iff_forall_not_mem]
    intro x hx
    rw [List.nodup_append, List.nodup_cons] at hn
    rcases Relation.reflTransGen_iff_eq_or_transGen.1 (hr x (by simp [hx])) with h1 | h1
    · rw [h1] at hn
      exact hn.2.1.1 hx
    · exact hn.2.2 x (before_of_parents_first h h1 before after rfl) x (List.mem_cons_of_mem _ hx) rfl
  rw [this]
  simp

end Sampo.Graph
