import Verif.Model.OrderPipeline
import Verif.Spec.OrderPipeline
import Verif.Lemmas.SwapOrder
import Verif.Lemmas.Schedulers
import Verif.Lemmas.Toposort

/-! Lemmas on order optimizers in a pipeline. -/

namespace Sampo

namespace SwapOrder
variable {par chi : Nat → List Nat} {start stop : Nat} {order : List Nat}

/-- In an order with predecessors first, whose first work is the only one without predecessors and whose last work is the only one
without successors, nothing is swapped in an area that does not reach from the first to the last work. -/
theorem inner_loop (hnd : order.Nodup) (hv : order.Pairwise fun x y => y ∉ par x)
    (hpar : ∀ (k : Nat) v, 0 < k → order[k]? = some v → ∃ p, p ∈ par v)
    (hchi : ∀ (k : Nat) v, k + 1 < order.length → order[k]? = some v → ∃ c, c ∈ chi v)
    (hin : 0 < start ∨ stop < order.length) :
    ∀ (is : List Nat) (processed : List Nat), (∀ i ∈ is, start ≤ i ∧ i < stop ∧ i < order.length) →
      ∃ processed', is.foldlM (step par chi start) ⟨order, indexOf order start stop, processed⟩ =
        some ⟨order, indexOf order start stop, processed'⟩ := by
  intro is
  induction is with
  | nil => intro processed _; exact ⟨processed, rfl⟩
  | cons i is ih =>
    intro processed hr
    obtain ⟨h1, h2, h3⟩ := hr i (by simp)
    rw [List.foldlM_cons]
    have hstep : ∃ processed', step par chi start ⟨order, indexOf order start stop, processed⟩ i =
        some ⟨order, indexOf order start stop, processed'⟩ := by
      unfold step
      simp only [List.getElem?_eq_getElem h3]
      by_cases hpr : order[i] ∈ processed
      · rw [if_pos hpr]; exact ⟨_, rfl⟩
      · rw [if_neg hpr]
        have hf : ((order.take i).drop start).find? (accepted par chi (indexOf order start stop) processed order[i] i) =
            none := by
          rw [List.find?_eq_none]
          intro cand hmem hacc
          obtain ⟨m, hm⟩ := List.mem_iff_getElem?.1 hmem
          rw [List.getElem?_drop, List.getElem?_take] at hm
          by_cases hmi : start + m < i
          swap
          · rw [if_neg hmi] at hm; exact absurd hm (by simp)
          rw [if_pos hmi] at hm
          unfold accepted at hacc
          simp only [Bool.and_eq_true, decide_eq_true_eq, List.all_eq_true, Bool.not_eq_true',
            decide_eq_false_iff_not, not_le] at hacc
          rcases Nat.eq_zero_or_pos (start + m) with h0 | h0
          · obtain ⟨c, hc⟩ := hchi i order[i] (by omega) (List.getElem?_eq_getElem h3)
            have h4 := hacc.1.2 c hc
            have h5 : indexOf order start stop cand = some 0 := by
              rw [indexOf_iff hnd]
              rw [h0] at hm
              exact ⟨by omega, by omega, hm⟩
            rw [h5] at h4
            simp at h4
          · obtain ⟨p, hp⟩ := hpar (start + m) cand h0 hm
            have h4 := hacc.2 p hp
            cases hi : indexOf order start stop p with
            | none => rw [hi] at h4; simp at h4
            | some k =>
              rw [hi] at h4
              simp only [Option.getD_some] at h4
              obtain ⟨_, _, hk⟩ := (indexOf_iff hnd p k).1 hi
              exact (pairwise_iff_getElem? _ _).1 hv (start + m) k cand p (by omega) hm hk hp
        rw [hf]
        exact ⟨_, rfl⟩
    obtain ⟨p1, e1⟩ := hstep
    rw [e1]
    exact ih p1 fun k hk => hr k (by simp [hk])

theorem optimize_inner (hnd : order.Nodup) (hv : order.Pairwise fun x y => y ∉ par x)
    (hpar : ∀ (k : Nat) v, 0 < k → order[k]? = some v → ∃ p, p ∈ par v)
    (hchi : ∀ (k : Nat) v, k + 1 < order.length → order[k]? = some v → ∃ c, c ∈ chi v)
    (hs : stop ≤ order.length) (hin : 0 < start ∨ stop < order.length) : optimize par chi start stop order = some order := by
  obtain ⟨p, h⟩ := inner_loop (par := par) (chi := chi) (start := start) (stop := stop) hnd hv hpar hchi hin
    (List.range' start (stop - start)).reverse []
    (by
      intro i hi
      rw [List.mem_reverse, List.mem_range'_1] at hi
      omega)
  unfold optimize
  rw [h]
  rfl

/-- What the loop keeps once `f` is at the front and processed. -/
structure Front (f : Nat) (order : List Nat) (s : State) : Prop where
  perm : s.order.Perm order
  ind : ∀ v k, s.ind v = some k ↔ s.order[k]? = some v
  front : s.order[0]? = some f
  done : f ∈ s.processed

theorem step_front {f : Nat} (hnd : order.Nodup) {s s' : State} {i : Nat} (h : Front f order s)
    (hs : step par chi 0 s i = some s') : Front f order s' := by
  unfold step at hs
  split at hs
  · cases hs
  · rename_i node hnode
    split at hs
    · cases hs; exact h
    · rename_i hpr
      split at hs
      · simp only [Option.some.injEq] at hs
        subst hs
        exact ⟨h.perm, h.ind, h.front, List.mem_cons_of_mem _ h.done⟩
      · rename_i cand hfind
        have hacc := List.find?_some hfind
        have hmem := List.mem_of_find?_eq_some hfind
        rw [List.drop_zero] at hmem
        obtain ⟨j, hj⟩ := List.mem_iff_getElem?.1 hmem
        rw [List.getElem?_take] at hj
        by_cases hji : j < i
        swap
        · rw [if_neg hji] at hj; cases hj
        rw [if_pos hji] at hj
        have hind := (h.ind cand j).2 hj
        simp only [hind, Option.getD_some, hj, Option.some.injEq] at hs
        subst hs
        have hne : cand ∉ s.processed := by
          unfold accepted at hacc
          simp only [Bool.and_eq_true, decide_eq_true_eq] at hacc
          exact hacc.1.1.2
        have hsn : s.order.Nodup := h.perm.nodup_iff.2 hnd
        have hinj : ∀ a b : Nat, ∀ x, s.order[a]? = some x → s.order[b]? = some x → a = b := by
          intro a b x ha hb
          obtain ⟨ha', hax⟩ := List.getElem?_eq_some_iff.1 ha
          obtain ⟨hb', hbx⟩ := List.getElem?_eq_some_iff.1 hb
          exact (List.getElem_inj hsn).1 (hax.trans hbx.symm)
        have hj0 : j ≠ 0 := by
          rintro rfl
          rw [h.front, Option.some.injEq] at hj
          exact hne (hj ▸ h.done)
        have hi0 : i ≠ 0 := by omega
        refine ⟨(perm_swap hnode hj).trans h.perm, ?_, ?_, by simp [h.done]⟩
        · intro v k
          rw [getElem?_swap hnode hj]
          dsimp only
          by_cases hvn : v = node
          · subst hvn
            rw [if_pos rfl]
            constructor
            · intro h'
              rw [Option.some.injEq] at h'
              rw [if_pos h'.symm]
            · intro h'
              by_cases hk : k = j
              · rw [hk]
              · rw [if_neg hk] at h'
                by_cases hk' : k = i
                · rw [if_pos hk', Option.some.injEq] at h'
                  subst h'
                  exact absurd (hinj _ _ _ hj hnode) (by omega)
                · rw [if_neg hk'] at h'
                  exact absurd (hinj _ _ _ h' hnode) hk'
          · rw [if_neg hvn]
            by_cases hvc : v = cand
            · subst hvc
              rw [if_pos rfl]
              constructor
              · intro h'
                rw [Option.some.injEq] at h'
                rw [if_neg (by omega), if_pos h'.symm]
              · intro h'
                by_cases hk : k = j
                · rw [if_pos hk, Option.some.injEq] at h'
                  exact absurd h'.symm hvn
                · rw [if_neg hk] at h'
                  by_cases hk' : k = i
                  · rw [hk']
                  · rw [if_neg hk'] at h'
                    exact absurd (hinj _ _ _ h' hj) hk
            · rw [if_neg hvc, h.ind]
              by_cases hk : k = j
              · rw [if_pos hk, hk, hj]
                simp only [Option.some.injEq]
                exact ⟨fun h' => absurd h'.symm hvc, fun h' => absurd h'.symm hvn⟩
              · rw [if_neg hk]
                by_cases hk' : k = i
                · rw [if_pos hk', hk', hnode]
                  simp only [Option.some.injEq]
                  exact ⟨fun h' => absurd h'.symm hvn, fun h' => absurd h'.symm hvc⟩
                · rw [if_neg hk']
        · rw [getElem?_swap hnode hj, if_neg (Ne.symm hj0), if_neg (Ne.symm hi0)]
          exact h.front

/-- An area that reaches from the first work, which has no predecessors, to the last one, which has no successors: the last work is
moved to the front. -/
theorem optimize_whole {s f : Nat} (hnd : order.Nodup) (h2 : 2 ≤ order.length) (hs : order[0]? = some s)
    (hf : order[order.length - 1]? = some f) (hpar : par s = []) (hchi : chi f = []) {r : List Nat}
    (h : optimize par chi 0 order.length order = some r) : r.Perm order ∧ r[0]? = some f := by
  unfold optimize at h
  rw [Option.map_eq_some_iff] at h
  obtain ⟨st, h, rfl⟩ := h
  rw [Nat.sub_zero, show (List.range' 0 order.length).reverse = (order.length - 1) :: (List.range' 0 (order.length - 1)).reverse by
    obtain ⟨n, hn⟩ : ∃ n, order.length = n + 1 := ⟨order.length - 1, by omega⟩
    rw [hn, List.range'_concat, List.reverse_append]
    simp, List.foldlM_cons, Option.bind_eq_bind, Option.bind_eq_some_iff] at h
  obtain ⟨s₁, h1, h⟩ := h
  have hsf : s ≠ f := by
    rintro rfl
    obtain ⟨ha, hax⟩ := List.getElem?_eq_some_iff.1 hs
    obtain ⟨hb, hbx⟩ := List.getElem?_eq_some_iff.1 hf
    have := (List.getElem_inj hnd).1 (hax.trans hbx.symm)
    omega
  have hi0 : indexOf order 0 order.length s = some 0 := (indexOf_iff hnd s 0).2 ⟨Nat.le_refl _, by omega, hs⟩
  have hfind : ((order.take (order.length - 1)).drop 0).find?
      (accepted par chi (indexOf order 0 order.length) [] f (order.length - 1)) = some s := by
    match order, hs, h2 with
    | a :: b :: l, hs, _ =>
      simp only [List.getElem?_cons_zero, Option.some.injEq] at hs
      subst hs
      simp only [List.length_cons, Nat.add_sub_cancel, List.drop_zero, List.take_succ_cons]
      rw [List.find?_cons_of_pos]
      simp [accepted, hpar, hchi]
  have hfront : Front f order s₁ := by
    unfold step at h1
    rw [hf] at h1
    simp only [List.not_mem_nil, if_false, hfind, hi0, Option.getD_some, hs, Option.some.injEq] at h1
    subst h1
    refine ⟨perm_swap hf hs, ?_, ?_, by simp⟩
    · intro v k
      rw [getElem?_swap hf hs]
      dsimp only
      have hall : ∀ v k, indexOf order 0 order.length v = some k ↔ order[k]? = some v := by
        intro v k
        rw [indexOf_iff hnd]
        constructor
        · exact fun h => h.2.2
        · exact fun h => ⟨Nat.zero_le _, (List.getElem?_eq_some_iff.1 h).1, h⟩
      have hinj : ∀ a b : Nat, ∀ x, order[a]? = some x → order[b]? = some x → a = b := by
        intro a b x ha hb
        obtain ⟨ha', hax⟩ := List.getElem?_eq_some_iff.1 ha
        obtain ⟨hb', hbx⟩ := List.getElem?_eq_some_iff.1 hb
        exact (List.getElem_inj hnd).1 (hax.trans hbx.symm)
      by_cases hvf : v = f
      · subst hvf
        rw [if_pos rfl]
        by_cases hk : k = 0
        · simp [hk]
        · rw [if_neg hk]
          by_cases hk' : k = order.length - 1
          · rw [if_pos hk']
            simp only [Option.some.injEq]
            exact ⟨fun h => absurd h.symm hk, fun h => absurd h hsf⟩
          · rw [if_neg hk']
            simp only [Option.some.injEq]
            exact ⟨fun h => absurd h.symm hk, fun h => absurd (hinj _ _ _ h hf) hk'⟩
      · rw [if_neg hvf]
        by_cases hvs : v = s
        · subst hvs
          rw [if_pos rfl]
          by_cases hk : k = 0
          · rw [if_pos hk]
            simp only [Option.some.injEq]
            exact ⟨fun h => by omega, fun h => absurd h.symm hvf⟩
          · rw [if_neg hk]
            by_cases hk' : k = order.length - 1
            · simp [hk']
            · rw [if_neg hk']
              simp only [Option.some.injEq]
              exact ⟨fun h => absurd h.symm hk', fun h => absurd (hinj _ _ _ h hs) hk⟩
        · rw [if_neg hvs, hall]
          by_cases hk : k = 0
          · rw [if_pos hk, hk, hs]
            simp only [Option.some.injEq]
            exact ⟨fun h => absurd h.symm hvs, fun h => absurd h.symm hvf⟩
          · rw [if_neg hk]
            by_cases hk' : k = order.length - 1
            · rw [if_pos hk', hk', hf]
              simp only [Option.some.injEq]
              exact ⟨fun h => absurd h.symm hvf, fun h => absurd h.symm hvs⟩
            · rw [if_neg hk']
    · rw [getElem?_swap hf hs, if_pos rfl]
  have hloop : ∀ (is : List Nat) (s : State), Front f order s → is.foldlM (step par chi 0) s = some st → Front f order st := by
    intro is
    induction is with
    | nil =>
      intro s h0 h
      simp only [List.foldlM_nil, Option.pure_def, Option.some.injEq] at h
      exact h ▸ h0
    | cons i is ih =>
      intro s h0 h
      rw [List.foldlM_cons, Option.bind_eq_bind, Option.bind_eq_some_iff] at h
      obtain ⟨s', h', h⟩ := h
      exact ih s' (step_front hnd h0 h') h
  have := hloop _ _ hfront h
  exact ⟨this.perm, this.front⟩

/-- An area that ends behind the order raises. -/
theorem optimize_outside (hs : start < stop) (hn : order.length < stop) :
    optimize par chi start stop order = none := by
  unfold optimize
  obtain ⟨k, hk⟩ : ∃ k, stop - start = k + 1 := ⟨stop - start - 1, by omega⟩
  rw [hk, List.range'_concat, List.reverse_append]
  simp only [List.reverse_cons, List.reverse_nil, List.nil_append, List.singleton_append, List.foldlM_cons]
  have : step par chi start ⟨order, indexOf order start stop, []⟩ (start + 1 * k) = none := by
    unfold step
    rw [List.getElem?_eq_none (by simp only; omega)]
  rw [this]
  rfl

end SwapOrder

namespace OnGraph
open Scheduler C89
open C22 (WorkGraph)

variable {g : Graph} {nodes : List Nat} {s f : Nat}

/-- Without cycles, a work depends on no work of its own chain that comes later. -/
theorem not_depends_in_chain (hw : WorkGraph g nodes) {x p : Nat} (hc : g.InChain x p) : ¬ g.DependsOn x p := by
  intro h
  rcases Relation.reflTransGen_iff_eq_or_transGen.1 hc with rfl | hc
  · exact hw.acyclic _ (Relation.TransGen.single h)
  · exact hw.acyclic x (Relation.TransGen.head h (Expand.follows_depends hc))

theorem good_pairwise {order : List Nat} (ho : GoodOrder g nodes order) : order.Pairwise fun x y => y ∉ g.parents x := by
  have hall : ∀ x ∈ order, ∀ y ∈ order, x ≠ y → ¬ g.HeadDependsOn nodes x y → y ∉ g.parents x := by
    intro x hx y hy hne h hm
    exact h ⟨(ho.2.1 x).1 hx, (ho.2.1 y).1 hy, Ne.symm hne, x, y, .refl, .refl, (Graph.mem_parents x y).1 hm⟩
  refine (List.Pairwise.and ho.1 ho.2.2).imp_of_mem ?_
  intro x y hx hy h
  exact hall x hx y hy h.1 h.2

/-- The first work of a good order is the start of the project. -/
theorem good_first (hw : WorkGraph g nodes) (hft : g.FromTo nodes s f) {order : List Nat} (ho : GoodOrder g nodes order) {x : Nat}
    (hx : order[0]? = some x) : x = s := by
  by_contra hne
  have hh := (ho.2.1 x).1 (List.mem_of_getElem? hx)
  obtain ⟨p, hp⟩ := (hft.start x hh.1).2 hne
  have hpn : p ∈ nodes := by
    obtain ⟨e, he, rfl, -⟩ := hp
    exact (hw.closed x hh.1).1 e he
  obtain ⟨k, ⟨hk, hc⟩, -⟩ := C22.one_head hw p hpn
  have hkx : k ≠ x := by
    rintro rfl
    exact not_depends_in_chain hw hc hp
  obtain ⟨j, hj⟩ := List.mem_iff_getElem?.1 ((ho.2.1 k).2 hk)
  have h0 : 0 < j := by
    rcases Nat.eq_zero_or_pos j with rfl | h
    · rw [hx, Option.some.injEq] at hj
      exact absurd hj.symm hkx
    · exact h
  exact (SwapOrder.pairwise_iff_getElem? _ _).1 ho.2.2 0 j x k h0 hx hj ⟨hh, hk, hkx, x, p, .refl, hc, hp⟩

/-- The last work of a good order is the finish of the project, unless that is in the chain of another work. -/
theorem good_last (hw : WorkGraph g nodes) (hft : g.FromTo nodes s f) (hf : g.IsHead nodes f) {order : List Nat}
    (ho : GoodOrder g nodes order) {x : Nat} (hx : order[order.length - 1]? = some x) : x = f := by
  by_contra hne
  have hh := (ho.2.1 x).1 (List.mem_of_getElem? hx)
  have hsucc : ∀ u ∈ g.chainWithSelf nodes.length x, ∃ c ∈ g.chainWithSelf nodes.length x, g.DependsOn c u := by
    intro u hu
    have hcu := (Heads.mem_chain hw.ok hh).1 hu
    have hun : u ∈ nodes := Graph.follows_closed hw.linked hw.closed hh.1 hcu
    have huf : u ≠ f := by
      rintro rfl
      exact hne (Graph.head_unique hw.chains hh hf hcu .refl)
    obtain ⟨c, hc⟩ := (hft.finish u hun).2 huf
    have hcn : c ∈ nodes := by
      obtain ⟨e, he, rfl, -⟩ := hc
      have he' := hw.linked.finish c e he
      subst he'
      exact (hw.closed _ hun).2 e ((hw.linked.both e).1 he)
    refine ⟨c, ?_, hc⟩
    obtain ⟨k, ⟨hk, hkc⟩, -⟩ := C22.one_head hw c hcn
    by_cases hkx : k = x
    · subst hkx
      exact (Heads.mem_chain hw.ok hh).2 hkc
    · exfalso
      obtain ⟨j, hj⟩ := List.mem_iff_getElem?.1 ((ho.2.1 k).2 hk)
      have hlt : j < order.length - 1 := by
        have := (List.getElem?_eq_some_iff.1 hj).1
        have : j ≠ order.length - 1 := by
          rintro rfl
          rw [hx, Option.some.injEq] at hj
          exact hkx hj.symm
        omega
      exact (SwapOrder.pairwise_iff_getElem? _ _).1 ho.2.2 j _ k x hlt hj hx ⟨hk, hh, Ne.symm hkx, c, u, hkc, hcu, hc⟩
  obtain ⟨y, -, hy⟩ := cycle_of_successors (r := fun a b => g.DependsOn b a)
    (List.ne_nil_of_mem ((Heads.mem_chain hw.ok hh).2 Relation.ReflTransGen.refl)) hsucc
  exact hw.acyclic y (Relation.transGen_swap.1 hy)

/-- Nothing is swapped in inner areas of a good order. -/
theorem swaps_inner (hw : WorkGraph g nodes) (hft : g.FromTo nodes s f) {order : List Nat} (ho : GoodOrder g nodes order)
    {areas : List (Nat × Nat)} (ha : ∀ a ∈ areas, Inner order.length a) : Pipeline.applyOrder (Pipeline.swaps g areas) order = some order := by
  have h1 : ∀ (k : Nat) v, 0 < k → order[k]? = some v → ∃ p, p ∈ g.parents v := by
    intro k v hk hv
    have hvn := ((ho.2.1 v).1 (List.mem_of_getElem? hv)).1
    have hlen := (List.getElem?_eq_some_iff.1 hv).1
    have h0 : order[0]? = some order[0] := List.getElem?_eq_getElem (by omega)
    have hs := good_first hw hft ho h0
    have hne : v ≠ s := by
      rintro rfl
      rw [hs] at h0
      obtain ⟨ha, hax⟩ := List.getElem?_eq_some_iff.1 hv
      obtain ⟨hb, hbx⟩ := List.getElem?_eq_some_iff.1 h0
      have := (List.getElem_inj ho.1).1 (hax.trans hbx.symm)
      omega
    obtain ⟨p, hp⟩ := (hft.start v hvn).2 hne
    exact ⟨p, (Graph.mem_parents v p).2 hp⟩
  have h2 : ∀ (k : Nat) v, k + 1 < order.length → order[k]? = some v → ∃ c, c ∈ g.children v := by
    intro k v hk hv
    have hvh := (ho.2.1 v).1 (List.mem_of_getElem? hv)
    have hne : v ≠ f := by
      rintro rfl
      have hl : order[order.length - 1]? = some order[order.length - 1] := List.getElem?_eq_getElem (by omega)
      rw [good_last hw hft hvh ho hl] at hl
      obtain ⟨ha, hax⟩ := List.getElem?_eq_some_iff.1 hv
      obtain ⟨hb, hbx⟩ := List.getElem?_eq_some_iff.1 hl
      have := (List.getElem_inj ho.1).1 (hax.trans hbx.symm)
      omega
    obtain ⟨c, hc⟩ := (hft.finish v hvh.1).2 hne
    exact ⟨c, (Graph.mem_children hw.linked v c).2 hc⟩
  induction areas with
  | nil => rfl
  | cons a as ih =>
    obtain ⟨h3, h4⟩ := ha a List.mem_cons_self
    have hopt := SwapOrder.optimize_inner (par := g.parents) (chi := g.children) (start := a.1) (stop := a.2) ho.1 (good_pairwise ho) h1 h2
      h3 h4
    have := ih fun b hb => ha b (List.mem_cons_of_mem _ hb)
    unfold Pipeline.applyOrder Pipeline.swaps at this ⊢
    rw [List.map_cons, List.foldlM_cons, hopt]
    exact this

end OnGraph

variable {σ : Type} {E : Env σ}

theorem Momentum.placeChain_keeps {team c times} : ∀ {vs : List Nat} {cur s sw r} {u : Nat}, u ∉ vs →
    Momentum.placeChain E team c times vs cur s sw = some r → r.2.2.get u = sw.get u
  | [], cur, s, sw, r, u, _, h => by
    simp only [Momentum.placeChain, Option.some.injEq] at h
    subst h
    rfl
  | v :: vs, cur, s, sw, r, u, hu, h => by
    simp only [Momentum.placeChain, Option.bind_eq_some_iff] at h
    obtain ⟨d, -, h⟩ := h
    rw [Momentum.placeChain_keeps (fun hm => hu (List.mem_cons_of_mem _ hm)) h, get_cons, if_neg]
    rintro rfl
    exact hu List.mem_cons_self

/-- The first work that is placed starts at the project start. -/
theorem Momentum.first_start (hsite : NoSiteLimits E) {P : Plan (State σ)} {inf : Int} {fuelIn fuel : Nat} {tl : Timeline} {env : σ}
    {st' : State σ} {v : Nat} {l : List Nat} (hch : E.chain v = v :: l) (hv : v ∉ l) (ht : P.assignedTimes v = none)
    (hP : 0 ≤ P.parentTime) (h : step E P inf fuelIn fuel true false ⟨tl, env, []⟩ v = some (some st')) :
    ∃ x, st'.sched.get v = some x ∧ x.start = P.parentTime := by
  have hpt : parentTimeOf E [] (some P.parentTime) P.parentTime v = P.parentTime := by
    have : minStart (E.edgesTo v) [] = 0 := by
      unfold minStart
      have : ((E.edgesTo v).filterMap fun e => (Sched.get [] e.1).map fun x => x.finish + e.2) = [] :=
        List.filterMap_eq_nil_iff.2 fun e _ => rfl
      rw [this]
      rfl
    unfold parentTimeOf applySpec
    simp only [this]
    omega
  simp only [step] at h
  split at h
  · simp at h
  · rename_i c hc
    split at h
    · simp at h
    · simp at h
    · rename_i f hf
      simp only [startFor, if_true, Bool.false_eq_true, if_false] at h
      unfold schedule at h
      rw [Option.map_eq_some_iff] at h
      obtain ⟨r, hr, h⟩ := h
      rw [Option.bind_eq_some_iff] at h
      obtain ⟨f', rfl, h⟩ := h
      have key : f'.start = P.parentTime ∧ ∃ t, timesOf f'.times v = some (0, t) := by
        have htm : ∃ t, timesOf (execTimes E [] c.1 (some P.parentTime) P.parentTime P.parentTime (E.chain v) 0).1 v = some (0, t) := by
          rw [hch]
          refine ⟨if (E.kinds v).isEmpty then 0 else E.estimate v c.1, ?_⟩
          simp only [execTimes, hpt, timesOf, List.find?_cons_of_pos, decide_true, Option.map_some]
          simp
        simp only [find, hpt] at hr
        split at hr
        · simp only [Option.some.injEq] at hr
          subst hr
          have h1 := hsite.material env v P.parentTime
          have h2 := hsite.zone env v P.parentTime (execTimes E [] c.1 (some P.parentTime) P.parentTime P.parentTime (E.chain v) 0).2
          refine ⟨?_, htm⟩
          dsimp only
          omega
        · simp only [Option.map_eq_some_iff, findStart] at hr
          obtain ⟨o, ho, hr⟩ := hr
          obtain ⟨t, rfl, rfl⟩ := hr
          simp only [Option.some.injEq, Option.map_eq_some_iff] at ho
          obtain ⟨_, _, rfl⟩ := ho
          exact ⟨rfl, htm⟩
      obtain ⟨k1, t, k2⟩ := key
      simp only [scheduleAt, Option.bind_eq_some_iff, Option.map_eq_some_iff] at h
      obtain ⟨r, hr, tl', -, env', -, rfl⟩ := h
      rw [ht, Option.getD_none, hch, k1] at hr
      simp only [placeChain, k2, Option.getD_some, Option.bind_eq_some_iff] at hr
      obtain ⟨d, hd, hr⟩ := hr
      obtain ⟨s', t', hd', hle⟩ := hsite.deliver env v (P.parentTime + 0)
      rw [hd', Option.some.injEq] at hd
      subst hd
      rw [placeChain_keeps hv hr, get_cons, if_pos rfl]
      exact ⟨_, rfl, by dsimp only; omega⟩

open Momentum in
/-- Nothing is placed before the project start. -/
theorem Momentum.buildFrom_starts {σ : Type} {E : Env σ} {P : Plan (State σ)} {inf : Int} {fuelIn fuel : Nat} {first : Bool} {order : List Nat}
    {st st' : State σ} (hest : ∀ v team, 0 ≤ E.estimate v team) (hts : ∀ v ts, P.assignedTimes v = some ts → NonNegTimes ts)
    (hP : 0 ≤ P.parentTime) (hinf : P.parentTime ≤ inf) (hs : ∀ e ∈ st.sched, P.parentTime ≤ e.2.start)
    (h : buildFrom E P inf fuelIn fuel first order st = some (some st')) : ∀ e ∈ st'.sched, P.parentTime ≤ e.2.start := by
  induction order generalizing first st with
  | nil => simp only [buildFrom, Option.some.injEq] at h; subst h; exact hs
  | cons v vs ih =>
    simp only [buildFrom] at h
    split at h
    · cases h
    · cases h
    · rename_i st1 h1
      obtain ⟨team, c, start, fin, -, hrow, -, hge⟩ := step_row hest hts hP hinf h1
      exact ih (hrow.all_starts (.inl hge) hs) h

end Sampo
