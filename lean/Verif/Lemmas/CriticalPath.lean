import Verif.Model.CriticalPath
import Verif.Spec.CriticalPath
import Verif.Props.C22_HeadNodes
import Mathlib.Algebra.Order.BigOperators.Group.List
import Mathlib.Tactic.Ring

/-! Lemmas about critical paths. -/

namespace Sampo.CriticalPath

variable {α : Type} [AddCommGroup α] [LinearOrder α]

omit [AddCommGroup α] in
theorem argmin_spec {key : Nat → α} {l : List Nat} {m : Nat} (h : argmin key l = some m) : m ∈ l ∧ ∀ x ∈ l, key m ≤ key x := by
  cases l with
  | nil => simp [argmin] at h
  | cons v vs =>
    simp only [argmin, Option.some.injEq] at h
    have key : ∀ (vs : List Nat) (v : Nat), vs.foldl (fun best x => if key x < key best then x else best) v ∈ v :: vs ∧
        ∀ x ∈ v :: vs, key (vs.foldl (fun best x => if key x < key best then x else best) v) ≤ key x := by
      intro vs
      induction vs with
      | nil => intro v; simp
      | cons a vs ih =>
        intro v
        rw [List.foldl_cons]
        obtain ⟨h1, h2⟩ := ih (if key a < key v then a else v)
        constructor
        · rcases List.mem_cons.mp h1 with h1 | h1
          · rw [h1]; split <;> simp
          · exact List.mem_cons_of_mem _ (List.mem_cons_of_mem _ h1)
        · intro x hx
          have hb := h2 _ (List.mem_cons_self ..)
          rcases List.mem_cons.mp hx with rfl | hx
          · refine le_trans hb ?_
            split
            · rename_i h; exact le_of_lt h
            · exact le_refl _
          · rcases List.mem_cons.mp hx with rfl | hx
            · refine le_trans hb ?_
              split
              · exact le_refl _
              · rename_i h; exact not_lt.mp h
            · exact h2 x (List.mem_cons_of_mem _ hx)
    subst h
    exact key vs v

omit [AddCommGroup α] in
theorem argmin_exists {key : Nat → α} {l : List Nat} (h : l ≠ []) : ∃ m, argmin key l = some m := by
  cases l with
  | nil => exact absurd rfl h
  | cons v vs => exact ⟨_, rfl⟩

section

variable [IsOrderedAddMonoid α] {heads : List Nat} {par chi : Nat → List Nat} {cost : Nat → α}

/-- Ranks are at most zero. -/
theorem rank_nonpos (hg : C20.HeadGraph heads par chi) (hc : ∀ v ∈ heads, 0 < cost v) :
    ∀ v ∈ heads, Heft.fordBellman heads (fun v => - cost v) par v ≤ 0 := by
  have hr := C20.heft_ranks_are_longest_paths hg cost
  dsimp only at hr
  have key : ∀ n, ∀ v ∈ heads, heads.length - heads.idxOf v ≤ n → Heft.fordBellman heads (fun v => - cost v) par v ≤ 0 := by
    intro n
    induction n with
    | zero =>
      intro v hv hn
      have := List.idxOf_lt_length_iff.2 hv
      omega
    | succ n ih =>
      intro v hv hn
      rcases hr.2 v with h | ⟨x, hx, hvx, h⟩
      · exact le_of_eq h
      · have hne : x ≠ v := fun h => hg.noSelf x hx (by rw [h] at hvx ⊢; exact hvx)
        have hlt := idxOf_lt_of_respects hg.topological hx hv (Ne.symm hne) hvx
        have := List.idxOf_lt_length_iff.2 hx
        have h1 := ih x hx (by omega)
        rw [h]
        exact sub_nonpos.mpr (le_trans h1 (le_of_lt (hc v hv)))
  exact fun v hv => key _ v hv (le_refl _)

/-- The loop finds a longest path from a node. -/
theorem loop_spec (hg : C20.HeadGraph heads par chi) (hc : ∀ v ∈ heads, 0 < cost v) {more : Nat → Bool}
    (hmore : ∀ v ∈ heads, more v = true ↔ chi v ≠ []) : ∀ (fuel v : Nat), v ∈ heads → heads.length - heads.idxOf v < fuel →
    ∃ l, loop (Heft.fordBellman heads (fun v => - cost v) par) chi more fuel v = some (some l) ∧
      (l.map cost).sum = - Heft.fordBellman heads (fun v => - cost v) par v ∧
      l.IsChain (fun x y => x ∈ par y) ∧ (∀ x ∈ l, x ∈ heads ∧ chi x ≠ []) ∧ ∀ x ∈ l.head?, x = v := by
  have hr := C20.heft_ranks_are_longest_paths hg cost
  dsimp only at hr
  intro fuel
  induction fuel with
  | zero => intro v _ h; omega
  | succ fuel ih =>
    intro v hv hfuel
    unfold loop
    by_cases hch : chi v = []
    · rw [if_neg (by rw [hmore v hv]; simpa using hch)]
      refine ⟨[], rfl, ?_, List.isChain_nil, by simp, by simp⟩
      rcases hr.2 v with h | ⟨x, hx, hvx, _⟩
      · rw [h]; simp
      · have := (hg.children v hv x).mpr ⟨hx, hvx⟩
        rw [hch] at this
        simp at this
    · rw [if_pos ((hmore v hv).mpr hch)]
      obtain ⟨c, hcmin⟩ := argmin_exists (key := Heft.fordBellman heads (fun v => - cost v) par) hch
      obtain ⟨hcm, hcle⟩ := argmin_spec hcmin
      obtain ⟨hch', hvc⟩ := (hg.children v hv c).mp hcm
      have hne : c ≠ v := fun h => hg.noSelf c hch' (by rw [h] at hvc ⊢; exact hvc)
      have hlt := idxOf_lt_of_respects hg.topological hch' hv (Ne.symm hne) hvc
      have hcl := List.idxOf_lt_length_iff.2 hch'
      obtain ⟨l, hl, hsum, hpath, hall, hhead⟩ := ih c hch' (by omega)
      have hrank : Heft.fordBellman heads (fun v => - cost v) par v = Heft.fordBellman heads (fun v => - cost v) par c - cost v := by
        apply le_antisymm (hr.1 c hch' v hvc)
        rcases hr.2 v with h | ⟨x, hx, hvx, h⟩
        · have h1 := hr.1 c hch' v hvc
          rw [h] at h1
          have h2 := rank_nonpos hg hc c hch'
          exact absurd (le_trans h1 (sub_le_sub_right h2 _)) (by rw [zero_sub]; exact not_le.mpr (neg_neg_of_pos (hc v hv)))
        · rw [h]
          exact sub_le_sub_right (hcle x ((hg.children v hv x).mpr ⟨hx, hvx⟩)) _
      refine ⟨v :: l, by rw [hcmin]; dsimp only; rw [hl]; rfl, ?_, ?_, ?_, by simp⟩
      · rw [List.map_cons, List.sum_cons, hsum, hrank, neg_sub, sub_eq_add_neg]
      · rw [List.isChain_cons]
        refine ⟨?_, hpath⟩
        intro y hy
        rw [hhead y hy]
        exact hvc
      · intro x hx
        rcases List.mem_cons.mp hx with rfl | hx
        · exact ⟨hv, hch⟩
        · exact hall x hx

/-- No path from a node is longer. -/
theorem path_bound (hg : C20.HeadGraph heads par chi) (hc : ∀ v ∈ heads, 0 < cost v) : ∀ (l : List Nat) (v : Nat),
    (v :: l).IsChain (fun x y => x ∈ par y) → (∀ x ∈ v :: l, x ∈ heads ∧ chi x ≠ []) →
    ((v :: l).map cost).sum ≤ - Heft.fordBellman heads (fun v => - cost v) par v := by
  have hr := C20.heft_ranks_are_longest_paths hg cost
  dsimp only at hr
  intro l
  induction l with
  | nil =>
    intro v _ hall
    obtain ⟨hv, hch⟩ := hall v (by simp)
    obtain ⟨c, hcm⟩ := List.exists_mem_of_ne_nil _ hch
    obtain ⟨hch', hvc⟩ := (hg.children v hv c).mp hcm
    have h1 := hr.1 c hch' v hvc
    have h2 := rank_nonpos hg hc c hch'
    simp only [List.map_cons, List.map_nil, List.sum_cons, List.sum_nil, add_zero]
    rw [le_neg]
    exact le_trans h1 (by rw [sub_eq_add_neg]; exact add_le_of_nonpos_left h2)
  | cons y l ih =>
    intro v hpath hall
    rw [List.isChain_cons_cons] at hpath
    have h1 := ih y hpath.2 (fun x hx => hall x (List.mem_cons_of_mem _ hx))
    have hy := hall y (by simp)
    have h2 := hr.1 y hy.1 v hpath.1
    rw [List.map_cons, List.sum_cons, le_neg, neg_add]
    refine le_trans h2 ?_
    rw [sub_eq_add_neg, add_comm]
    exact add_le_add_right (le_neg.mp h1) _

/-- `path` finds a longest path. -/
theorem path_spec (hg : C20.HeadGraph heads par chi) (hc : ∀ v ∈ heads, 0 < cost v) (hne : heads ≠ []) {more : Nat → Bool}
    (hmore : ∀ v ∈ heads, more v = true ↔ chi v ≠ []) :
    ∃ l, path heads cost par chi more = some (some l) ∧ l.IsChain (fun x y => x ∈ par y) ∧ (∀ x ∈ l, x ∈ heads ∧ chi x ≠ []) ∧
      ∀ l' : List Nat, l'.IsChain (fun x y => x ∈ par y) → (∀ x ∈ l', x ∈ heads ∧ chi x ≠ []) → (l'.map cost).sum ≤ (l.map cost).sum := by
  unfold path
  dsimp only
  obtain ⟨s, hs⟩ := argmin_exists (key := Heft.fordBellman heads (fun v => - cost v) par) hne
  obtain ⟨hsm, hsle⟩ := argmin_spec hs
  rw [hs]
  have := List.idxOf_lt_length_iff.2 hsm
  obtain ⟨l, hl, hsum, hpath, hall, _⟩ := loop_spec hg hc hmore (heads.length + 1) s hsm (by omega)
  refine ⟨l, hl, hpath, hall, ?_⟩
  intro l' hp' hall'
  rw [hsum]
  cases l' with
  | nil =>
    simp only [List.map_nil, List.sum_nil]
    rw [le_neg, neg_zero]
    exact rank_nonpos hg hc s hsm
  | cons v l' =>
    exact le_trans (path_bound hg hc l' v hp' hall') (neg_le_neg (hsle v (hall' v (by simp)).1))

end

/-! ### Chains -/

variable {g : Graph} {nodes : List Nat}

theorem follows_depends {a b : Nat} (h : g.Follows a b) : g.DependsOn b a := by
  obtain ⟨e, he, hs, ht⟩ := h
  exact ⟨e, he, hs, Or.inr (Or.inr ht)⟩

/-- The fuelled chain of a head has no work twice and its last work has no follower. -/
theorem chain_list (h : C22.WorkGraph g nodes) {k : Nat} (hk : g.IsHead nodes k) :
    (g.chainFrom nodes.length k).Nodup ∧ (∀ x, x ∈ g.chainFrom nodes.length k ↔ g.InChain k x) ∧
      g.InChain k (lastOf g nodes.length k) ∧ ∀ y, ¬ g.Follows (lastOf g nodes.length k) y := by
  have hm : ∀ x, x ∈ g.chainFrom nodes.length k ↔ g.InChain k x := fun x =>
    Graph.mem_chainFrom h.linked h.chains h.closed h.ok.acyclic hk.1
  obtain ⟨-, hp⟩ := Graph.chainFrom_pairwise h.linked nodes.length k
  have hin : ∀ x, x ∈ g.chainFrom nodes.length k → x ∈ nodes := fun x hx =>
    Graph.follows_closed h.linked h.closed hk.1 ((hm x).mp hx)
  have hne : g.chainFrom nodes.length k ≠ [] := List.ne_nil_of_mem (Graph.self_mem_chainFrom _ _)
  have hlast : lastOf g nodes.length k = (g.chainFrom nodes.length k).getLast hne := by
    unfold lastOf
    rw [List.getLastD_eq_getLast?, List.getLast?_eq_some_getLast hne]
    rfl
  refine ⟨?_, hm, ?_, ?_⟩
  · rw [List.nodup_iff_pairwise_ne]
    refine List.Pairwise.imp_of_mem ?_ hp
    intro a b ha _ hab heq
    subst heq
    exact h.ok.acyclic a (hin a ha) hab
  · rw [hlast]; exact (hm _).mp (List.getLast_mem hne)
  · intro y hy
    rw [hlast] at hy
    have hz := List.getLast_mem hne
    have hym : y ∈ g.chainFrom nodes.length k := (hm y).mpr (Relation.ReflTransGen.tail ((hm _).mp hz) hy)
    have hd := List.dropLast_append_getLast hne
    rw [← hd, List.pairwise_append] at hp
    rw [← hd, List.mem_append] at hym
    rcases hym with hym | hym
    · have h1 := hp.2.2 y hym _ (List.mem_singleton_self _)
      exact h.ok.acyclic _ (hin _ hz) (Relation.TransGen.head hy h1)
    · rw [List.mem_singleton] at hym
      rw [hym] at hy
      exact h.ok.acyclic _ (hin _ hz) (Relation.TransGen.single hy)

/-- Every work of a chain comes before the last one. -/
theorem to_last (h : C22.WorkGraph g nodes) {k z w : Nat} (hz : g.InChain k z) (hlast : ∀ y, ¬ g.Follows z y) (hw : g.InChain k w) :
    g.InChain w z := by
  induction hw with
  | refl => exact hz
  | tail _ hs ih =>
    rcases Relation.ReflTransGen.cases_head ih with heq | ⟨c, hc, hcz⟩
    · subst heq
      exact absurd hs (hlast _)
    · rw [h.chains.oneSon _ _ _ hs hc]
      exact hcz

theorem inChain_depends {a b : Nat} (h : g.InChain a b) : Relation.ReflTransGen g.DependsOn b a := by
  induction h with
  | refl => exact Relation.ReflTransGen.refl
  | tail _ hs ih => exact Relation.ReflTransGen.head (follows_depends hs) ih

/-- Whether a chain has successors shows in its first work. -/
theorem more_iff (h : C22.WorkGraph g nodes) {final : Nat} (hf : Final g nodes final) {v : Nat} (hv : g.IsHead nodes v) :
    (g.children v ≠ [] ↔ v ≠ final) ∧ ((∃ c, g.HeadDependsOn nodes c v) ↔ v ≠ final) := by
  have hchild : v ≠ final → g.children v ≠ [] := by
    intro hne
    obtain ⟨w, hw⟩ := hf.others v hv.1 hne
    exact List.ne_nil_of_mem ((Graph.mem_children h.linked v w).mpr hw)
  have hnone : v = final → g.children v = [] := by
    rintro rfl
    rw [List.eq_nil_iff_forall_not_mem]
    exact fun w hw => hf.last w ((Graph.mem_children h.linked _ w).mp hw)
  refine ⟨⟨fun hc heq => hc (hnone heq), hchild⟩, ?_, ?_⟩
  · rintro ⟨c, -, -, -, x, w, -, hw, hd⟩ rfl
    rcases Relation.ReflTransGen.cases_head hw with heq | ⟨s, hs, -⟩
    · rw [← heq] at hd
      exact hf.last x hd
    · exact hf.last s (follows_depends hs)
  · intro hne
    obtain ⟨-, -, hz, hlast⟩ := chain_list h hv
    have hzn := Graph.follows_closed h.linked h.closed hv.1 hz
    have hzf : lastOf g nodes.length v ≠ final := by
      intro heq
      rw [heq] at hz
      rcases Relation.ReflTransGen.cases_tail hz with heq | ⟨c, -, hc⟩
      · exact hne heq.symm
      · exact hf.alone c hc
    obtain ⟨w, hw⟩ := hf.others _ hzn hzf
    have hwn : w ∈ nodes := Heads.children_closed h.closed _ hzn w ((Graph.mem_children h.linked _ w).mpr hw)
    obtain ⟨c, ⟨hc, hcw⟩, -⟩ := C22.one_head h w hwn
    refine ⟨c, hc, hv, ?_, w, _, hcw, hz, hw⟩
    rintro rfl
    have h1 := inChain_depends (to_last h hz hlast hcw)
    exact h.acyclic _ (Relation.TransGen.tail' h1 hw)

theorem foldl_tAdd {dur : Nat → Int} : ∀ (l : List Nat) (t : Int), (∀ x ∈ l, 0 ≤ dur x) → 0 ≤ t → t + (l.map dur).sum ≤ TIME_INF →
    l.foldl (fun t x => tAdd t (dur x)) t = t + (l.map dur).sum := by
  intro l
  induction l with
  | nil => intro t _ _ _; simp
  | cons x l ih =>
    intro t hd ht hb
    rw [List.map_cons, List.sum_cons] at hb
    have hx := hd x (by simp)
    have hs : 0 ≤ (l.map dur).sum := List.sum_nonneg (by
      intro a ha
      obtain ⟨y, hy, rfl⟩ := List.mem_map.mp ha
      exact hd y (List.mem_cons_of_mem _ hy))
    have he : tAdd t (dur x) = t + dur x := by
      unfold tAdd mkTime
      have : TIME_INF = 2000000000 := rfl
      split_ifs <;> omega
    rw [List.foldl_cons, he, ih _ (fun y hy => hd y (List.mem_cons_of_mem _ hy)) (by omega) (by omega), List.map_cons, List.sum_cons]
    omega

/-- The cost of a chain is its time plus one. -/
theorem cost_eq (h : C22.WorkGraph g nodes) {chain : Nat → List Nat} (hl : ListsChains g nodes chain) {dur : Nat → Int}
    (hd : ∀ v ∈ nodes, 0 ≤ dur v) {k : Nat} (hk : g.IsHead nodes k) (hb : 2 * ((chain k).map dur).sum ≤ TIME_INF) :
    cost g nodes dur k = (((chain k).map dur).sum : ℚ) + 1 ∧ 0 ≤ ((chain k).map dur).sum := by
  obtain ⟨hnd, hm, -, -⟩ := chain_list h hk
  obtain ⟨hnd', hm'⟩ := hl k hk
  have hperm : (g.chainFrom nodes.length k).Perm (chain k) :=
    (List.perm_ext_iff_of_nodup hnd hnd').mpr fun x => by rw [hm, hm']
  have hpos : 0 ≤ ((chain k).map dur).sum := List.sum_nonneg (by
    intro a ha
    obtain ⟨y, hy, rfl⟩ := List.mem_map.mp ha
    exact hd y (Graph.follows_closed h.linked h.closed hk.1 ((hm' y).mp hy)))
  have hsum : ((g.chainFrom nodes.length k).map dur).sum = ((chain k).map dur).sum := (hperm.map dur).sum_eq
  have hc : cascade g nodes dur k = ((chain k).map dur).sum := by
    unfold cascade
    rw [(Graph.insepParent_none k).mpr hk.2, if_neg (by simp),
      Graph.chainWithSelf_eq (List.length_pos_iff.2 (List.ne_nil_of_mem hk.1)) hk.2]
    have h0 : mkTime 0 = 0 := by decide
    rw [h0, foldl_tAdd _ _ (fun x hx => hd x (Graph.follows_closed h.linked h.closed hk.1 ((hm x).mp hx))) (le_refl _)
      (by rw [hsum]; have : TIME_INF = 2000000000 := rfl; omega), hsum]
    omega
  refine ⟨?_, hpos⟩
  unfold cost
  rw [hc]
  have he : tAdd ((chain k).map dur).sum ((chain k).map dur).sum = ((chain k).map dur).sum + ((chain k).map dur).sum := by
    unfold tAdd mkTime
    have : TIME_INF = 2000000000 := rfl
    split_ifs <;> omega
  rw [he]
  push_cast
  ring

theorem sum_cost {chain : Nat → List Nat} {dur : Nat → Int} {c : Nat → ℚ} : ∀ (l : List Nat),
    (∀ k ∈ l, c k = (((chain k).map dur).sum : ℚ) + 1) → (l.map c).sum = ((time chain dur l + l.length : Int) : ℚ) := by
  intro l
  induction l with
  | nil => intro _; simp [time]
  | cons k l ih =>
    intro h
    rw [List.map_cons, List.sum_cons, ih (fun x hx => h x (List.mem_cons_of_mem _ hx)), h k (by simp)]
    simp only [time, List.map_cons, List.sum_cons, List.length_cons]
    push_cast
    ring

/-- What the reporting loop gives when the works to report are known and different. -/
theorem report_spec {fuel : Nat} {known : List Nat} : ∀ (l acc : List Nat), (∀ v ∈ l, lastOf g fuel v ∈ known) →
    (acc ++ l.map (lastOf g fuel)).Nodup → report g fuel known l acc = some (acc ++ l.map (lastOf g fuel)) := by
  intro l
  induction l with
  | nil => intro acc _ _; simp [report]
  | cons v l ih =>
    intro acc hk hnd
    have hnot : lastOf g fuel v ∉ acc := by
      rw [List.nodup_append] at hnd
      exact fun hm => hnd.2.2 _ hm _ (by simp) rfl
    unfold report
    rw [if_pos (hk v (by simp)), if_neg hnot, ih _ (fun x hx => hk x (List.mem_cons_of_mem _ hx)) (by simpa using hnd)]
    simp

end Sampo.CriticalPath
