import Verif.Model.Toposort
import Verif.Spec.Order
import Mathlib.Data.Fintype.Order
import Mathlib.Order.WellFounded
import Mathlib.Data.Set.Finite.Lemmas

namespace Sampo

/-- A finite non-empty set in which everything has a successor contains a cycle. -/
theorem cycle_of_successors {r : Nat → Nat → Prop} {l : List Nat} (hne : l ≠ [])
    (h : ∀ x ∈ l, ∃ y ∈ l, r x y) : ∃ x ∈ l, Relation.TransGen r x x := by
  by_contra hc
  push Not at hc
  let s : {x // x ∈ l} → {x // x ∈ l} → Prop := fun a b => Relation.TransGen r b.1 a.1
  have : Finite {x // x ∈ l} := List.finite_toSet l
  have : IsTrans _ s := ⟨fun a b c hab hbc => Relation.TransGen.trans hbc hab⟩
  have : Std.Irrefl s := ⟨fun a ha => hc a.1 a.2 ha⟩
  have hwf : WellFounded s := Finite.wellFounded_of_trans_of_irrefl s
  obtain ⟨x, hx⟩ := List.exists_mem_of_ne_nil l hne
  obtain ⟨m, -, hm⟩ := hwf.has_min Set.univ ⟨⟨x, hx⟩, trivial⟩
  obtain ⟨y, hy, hr⟩ := h m.1 m.2
  exact hm ⟨y, hy⟩ trivial (Relation.TransGen.single hr)

namespace Deps

theorem keys_remove (d : Deps) (o : List Nat) : (d.remove o).keys = d.keys.filter fun x => x ∉ o := by
  unfold remove keys
  rw [List.map_map, List.filter_map]
  rfl

theorem mem_remove {d : Deps} {o : List Nat} {x : Nat} {deps : List Nat} (h : (x, deps) ∈ d) (hx : x ∉ o) :
    (x, deps.filter fun y => y ∉ o) ∈ d.remove o := by
  unfold remove
  rw [List.mem_map]
  exact ⟨(x, deps), List.mem_filter.2 ⟨h, by simpa using hx⟩, rfl⟩

theorem of_mem_remove {d : Deps} {o : List Nat} {e : Nat × List Nat} (h : e ∈ d.remove o) :
    e.1 ∉ o ∧ ∃ deps, (e.1, deps) ∈ d ∧ e.2 = deps.filter fun y => y ∉ o := by
  unfold remove at h
  rw [List.mem_map] at h
  obtain ⟨e', he', rfl⟩ := h
  rw [List.mem_filter] at he'
  exact ⟨by simpa using he'.2, e'.2, he'.1, rfl⟩

theorem mem_ready {d : Deps} {x : Nat} : x ∈ d.ready ↔ (x, []) ∈ d := by
  unfold ready keys
  rw [List.mem_map]
  constructor
  · rintro ⟨⟨a, b⟩, h, rfl⟩
    rw [List.mem_filter] at h
    have : b = [] := by simpa using h.2
    rw [this] at h
    exact h.1
  · intro h
    exact ⟨(x, []), List.mem_filter.2 ⟨h, rfl⟩, rfl⟩

theorem keys_unique {d : Deps} (hd : d.keys.Nodup) {x : Nat} {a b : List Nat} (ha : (x, a) ∈ d) (hb : (x, b) ∈ d) :
    a = b := by
  have := List.inj_on_of_nodup_map hd ha hb rfl
  exact (Prod.mk.inj this).2

/-- All dependencies are keys. -/
def Closed (d : Deps) : Prop := ∀ e ∈ d, ∀ x ∈ e.2, x ∈ d.keys

theorem closed_remove {d : Deps} (hd : d.Closed) (o : List Nat) : (d.remove o).Closed := by
  intro e he x hx
  obtain ⟨-, deps, hm, hdeps⟩ := of_mem_remove he
  rw [hdeps, List.mem_filter] at hx
  rw [keys_remove, List.mem_filter]
  exact ⟨hd _ hm x hx.1, hx.2⟩

theorem mem_keys_of_mem {d : Deps} {x : Nat} {l : List Nat} (h : (x, l) ∈ d) : x ∈ d.keys :=
  List.mem_map.2 ⟨_, h, rfl⟩

theorem exists_of_mem_keys {d : Deps} {x : Nat} (h : x ∈ d.keys) : ∃ l, (x, l) ∈ d := by
  obtain ⟨e, he, rfl⟩ := List.mem_map.1 h
  exact ⟨e.2, he⟩

end Deps

open Deps

theorem toposortLoop_perm : ∀ (fuel : Nat) (d : Deps), d.keys.Nodup →
    d.keys.Perm ((toposortLoop fuel d).1.flatten ++ (toposortLoop fuel d).2.keys)
  | 0, d, _ => by simp [toposortLoop]
  | fuel + 1, d, hd => by
    unfold toposortLoop
    split
    · simp
    · have ih := toposortLoop_perm fuel (d.remove d.ready) (by rw [keys_remove]; exact hd.filter _)
      rw [keys_remove] at ih
      simp only [List.flatten_cons, List.append_assoc]
      have hr : (d.keys.filter fun x => x ∈ d.ready).Perm d.ready := by
        apply (List.perm_ext_iff_of_nodup (hd.filter _) _).2
        · intro x
          rw [List.mem_filter]
          constructor
          · rintro ⟨-, h⟩; simpa using h
          · intro h; exact ⟨mem_keys_of_mem (mem_ready.1 h), by simpa using h⟩
        · unfold ready keys
          exact hd.sublist (List.Sublist.map _ List.filter_sublist)
      have hs : d.keys.Perm ((d.keys.filter fun x => x ∈ d.ready) ++ (d.keys.filter fun x => x ∉ d.ready)) := by
        have := (List.filter_append_perm (fun x => decide (x ∈ d.ready)) d.keys).symm
        simpa using this
      exact hs.trans (hr.append ih)

theorem toposortLoop_levels : ∀ (fuel : Nat) (d : Deps), d.keys.Nodup →
    ∀ before level after, (toposortLoop fuel d).1 = before ++ level :: after →
      ∀ x ∈ level, ∀ deps, (x, deps) ∈ d → ∀ y ∈ deps, ∃ l ∈ before, y ∈ l
  | 0, d, _ => by
    intro before level after h
    simp [toposortLoop] at h
  | fuel + 1, d, hd => by
    intro before level after h x hx deps hm y hy
    unfold toposortLoop at h
    split at h
    · simp at h
    · simp only at h
      cases before with
      | nil =>
        rw [List.nil_append, List.cons.injEq] at h
        rw [← h.1] at hx
        have := keys_unique hd hm (mem_ready.1 hx)
        rw [this] at hy
        exact absurd hy (List.not_mem_nil)
      | cons b bs =>
        rw [List.cons_append, List.cons.injEq] at h
        obtain ⟨rfl, h⟩ := h
        by_cases hyr : y ∈ d.ready
        · exact ⟨_, List.mem_cons_self, hyr⟩
        · have hxr : x ∉ d.ready := by
            intro hxr
            have := keys_unique hd hm (mem_ready.1 hxr)
            rw [this] at hy
            exact absurd hy (List.not_mem_nil)
          have ih := toposortLoop_levels fuel (d.remove d.ready) (by rw [keys_remove]; exact hd.filter _)
            bs level after h x hx _ (mem_remove hm hxr) y (List.mem_filter.2 ⟨hy, by simpa using hyr⟩)
          obtain ⟨l, hl, hyl⟩ := ih
          exact ⟨l, List.mem_cons_of_mem _ hl, hyl⟩

theorem toposortLoop_nonempty : ∀ (fuel : Nat) (d : Deps), ∀ l ∈ (toposortLoop fuel d).1, l ≠ []
  | 0, d => by simp [toposortLoop]
  | fuel + 1, d => by
    intro l hl
    unfold toposortLoop at hl
    split at hl
    · simp at hl
    · rename_i hne
      rw [List.mem_cons] at hl
      rcases hl with rfl | hl
      · simpa using hne
      · exact toposortLoop_nonempty fuel _ l hl

/-- What is left after enough rounds: everything left depends on something left. -/
theorem toposortLoop_rest : ∀ (fuel : Nat) (d : Deps), d.length < fuel → d.Closed →
    ∀ x ∈ (toposortLoop fuel d).2.keys, ∃ y ∈ (toposortLoop fuel d).2.keys, ∃ deps, (x, deps) ∈ d ∧ y ∈ deps
  | 0, d, h, _ => by omega
  | fuel + 1, d, h, hc => by
    intro x hx
    unfold toposortLoop at hx ⊢
    split at hx
    · rename_i he
      rw [if_pos he]
      simp only at hx ⊢
      obtain ⟨deps, hm⟩ := exists_of_mem_keys hx
      have hne : deps ≠ [] := by
        rintro rfl
        have : x ∈ d.ready := mem_ready.2 hm
        rw [List.isEmpty_iff.1 he] at this
        exact List.not_mem_nil this
      obtain ⟨y, hy⟩ := List.exists_mem_of_ne_nil deps hne
      exact ⟨y, hc _ hm y hy, deps, hm, hy⟩
    · rename_i he
      rw [if_neg he]
      simp only at hx ⊢
      have hlen : (d.remove d.ready).length < fuel := by
        have h1 : (d.remove d.ready).length = (d.remove d.ready).keys.length := by unfold keys; rw [List.length_map]
        rw [h1, keys_remove]
        have hd : d.length = d.keys.length := by unfold keys; rw [List.length_map]
        have hne : d.ready ≠ [] := by simpa using he
        obtain ⟨z, hz⟩ := List.exists_mem_of_ne_nil _ hne
        have : (d.keys.filter fun x => x ∉ d.ready).length < d.keys.length := by
          rw [List.length_filter_lt_length_iff_exists]
          exact ⟨z, mem_keys_of_mem (mem_ready.1 hz), by simpa using hz⟩
        omega
      obtain ⟨y, hy, deps, hm, hyd⟩ := toposortLoop_rest fuel _ hlen (closed_remove hc _) x hx
      obtain ⟨-, deps', hm', hdeps⟩ := of_mem_remove hm
      simp only at hm' hdeps
      rw [hdeps, List.mem_filter] at hyd
      exact ⟨y, hy, deps', hm', hyd.1⟩

namespace Deps

theorem keys_clean (d : Deps) : d.clean.keys = d.keys := by
  unfold clean keys
  rw [List.map_map]
  rfl

theorem keys_prepare (d : Deps) : d.prepare.keys = d.keys ++ d.clean.extra := by
  unfold prepare
  have h : ∀ a b : Deps, keys (a ++ b) = keys a ++ keys b := fun a b => List.map_append
  rw [h, keys_clean]
  congr 1
  unfold keys
  rw [List.map_map]
  exact List.map_id _

theorem mem_extra {d : Deps} {x : Nat} : x ∈ d.extra ↔ (∃ e ∈ d, x ∈ e.2) ∧ x ∉ d.keys := by
  unfold extra
  rw [List.mem_dedup, List.mem_filter, List.mem_flatMap]
  simp

theorem nodup_prepare {d : Deps} (hd : d.keys.Nodup) : d.prepare.keys.Nodup := by
  rw [keys_prepare, List.nodup_append]
  refine ⟨hd, List.nodup_dedup _, ?_⟩
  intro a ha b hb hab
  have := (mem_extra.1 hb).2
  rw [keys_clean, ← hab] at this
  exact this ha

theorem mem_prepare {d : Deps} {x y : Nat} : (∃ deps, (x, deps) ∈ d.prepare ∧ y ∈ deps) ↔ DependsOn d x y := by
  unfold prepare DependsOn
  constructor
  · rintro ⟨deps, hm, hy⟩
    rw [List.mem_append] at hm
    rcases hm with hm | hm
    · unfold clean at hm
      rw [List.mem_map] at hm
      obtain ⟨⟨a, b⟩, he, heq⟩ := hm
      rw [Prod.mk.injEq] at heq
      obtain ⟨rfl, rfl⟩ := heq
      simp only [List.mem_filter] at hy
      exact ⟨by simpa using hy.2, b, he, hy.1⟩
    · rw [List.mem_map] at hm
      obtain ⟨z, -, heq⟩ := hm
      rw [Prod.mk.injEq] at heq
      rw [← heq.2] at hy
      exact absurd hy (List.not_mem_nil)
  · rintro ⟨hne, deps, hm, hy⟩
    refine ⟨deps.filter fun z => z ≠ x, List.mem_append_left _ ?_, List.mem_filter.2 ⟨hy, by simpa using hne⟩⟩
    unfold clean
    exact List.mem_map.2 ⟨(x, deps), hm, rfl⟩

theorem closed_prepare (d : Deps) : d.prepare.Closed := by
  rintro ⟨x, deps⟩ he y hy
  rw [keys_prepare, List.mem_append]
  by_cases hk : y ∈ d.keys
  · exact Or.inl hk
  · right
    rw [mem_extra, keys_clean]
    refine ⟨?_, hk⟩
    unfold prepare at he
    rw [List.mem_append] at he
    rcases he with he | he
    · exact ⟨_, he, hy⟩
    · rw [List.mem_map] at he
      obtain ⟨z, -, heq⟩ := he
      rw [Prod.mk.injEq] at heq
      simp only [← heq.2] at hy
      exact absurd hy (List.not_mem_nil)

theorem mem_keys_prepare {d : Deps} {x : Nat} : x ∈ d.prepare.keys ↔ Mentioned d x := by
  rw [keys_prepare, List.mem_append, mem_extra, keys_clean]
  unfold Mentioned
  constructor
  · rintro (h | ⟨⟨e, he, hx⟩, -⟩)
    · obtain ⟨l, hl⟩ := exists_of_mem_keys h
      exact ⟨_, hl, Or.inl rfl⟩
    · unfold clean at he
      rw [List.mem_map] at he
      obtain ⟨e', he', rfl⟩ := he
      exact ⟨e', he', Or.inr (List.mem_filter.1 hx).1⟩
  · rintro ⟨e, he, rfl | hx⟩
    · exact Or.inl (mem_keys_of_mem he)
    · by_cases hk : x ∈ d.keys
      · exact Or.inl hk
      · refine Or.inr ⟨⟨(e.1, e.2.filter fun z => z ≠ e.1), List.mem_map.2 ⟨e, he, rfl⟩, List.mem_filter.2 ⟨hx, ?_⟩⟩, hk⟩
        have : x ≠ e.1 := by
          rintro rfl
          exact hk (mem_keys_of_mem he)
        simpa using this

end Deps

/-- Levels of disjoint items that respect the dependencies exclude cycles. -/
theorem acyclic_of_levels {r : Nat → Nat → Prop} {levels : List (List Nat)} (hnd : levels.flatten.Nodup)
    (hl : LevelsRespect r levels) (hall : ∀ x y, r x y → x ∈ levels.flatten) : Acyclic r := by
  have key : ∀ x z, Relation.TransGen r x z → ∀ before level after, levels = before ++ level :: after → x ∈ level →
      z ∈ before.flatten := by
    intro x z h
    induction h using Relation.TransGen.head_induction_on with
    | single h =>
      intro before level after he hx
      obtain ⟨l, hlm, hz⟩ := hl before level after he _ hx _ h
      exact List.mem_flatten.2 ⟨l, hlm, hz⟩
    | head h _ ih =>
      intro before level after he hx
      obtain ⟨l, hlm, hy⟩ := hl before level after he _ hx _ h
      obtain ⟨b1, b2, rfl⟩ := List.append_of_mem hlm
      have := ih b1 l (b2 ++ level :: after) (by rw [he]; simp) hy
      rw [List.flatten_append, List.mem_append]
      exact Or.inl this
  intro x hx
  obtain ⟨y, hxy⟩ : ∃ y, r x y := by
    rcases Relation.TransGen.head'_iff.1 hx with ⟨y, h, -⟩
    exact ⟨y, h⟩
  obtain ⟨level, hlm, hxl⟩ := List.mem_flatten.1 (hall x y hxy)
  obtain ⟨before, after, he⟩ := List.append_of_mem hlm
  have hb := key x x hx before level after he hxl
  rw [he, List.flatten_append, List.flatten_cons, List.nodup_append] at hnd
  exact hnd.2.2 x hb x (List.mem_append_left _ hxl) rfl

/-- Facts about the result of `toposort`. -/
theorem toposort_some {d : Deps} (hd : d.keys.Nodup) {levels : List (List Nat)} (h : toposort d = some levels) :
    levels.flatten.Nodup ∧ (∀ x, x ∈ levels.flatten ↔ Mentioned d x) ∧ LevelsRespect (DependsOn d) levels ∧
      ∀ l ∈ levels, l ≠ [] := by
  unfold toposort at h
  split at h
  · rename_i he
    obtain rfl : d = [] := by simpa using he
    obtain rfl : [] = levels := by simpa using h
    refine ⟨by simp, fun x => ⟨by simp, ?_⟩, ?_, by simp⟩
    · rintro ⟨e, he, -⟩
      exact absurd he (List.not_mem_nil)
    · intro b l a h
      simp at h
  · simp only at h
    split at h
    · rename_i hr
      rw [Option.some.injEq] at h
      have hp := toposortLoop_perm (d.prepare.length + 1) d.prepare (nodup_prepare hd)
      have hrest : (toposortLoop (d.prepare.length + 1) d.prepare).2 = [] := by simpa using hr
      rw [hrest, h] at hp
      have hp : d.prepare.keys.Perm levels.flatten := by simpa [keys] using hp
      refine ⟨hp.nodup_iff.1 (nodup_prepare hd), fun x => by rw [← hp.mem_iff, mem_keys_prepare], ?_, ?_⟩
      · intro before level after he x hx y hxy
        obtain ⟨deps, hm, hy⟩ := mem_prepare.2 hxy
        exact toposortLoop_levels _ d.prepare (nodup_prepare hd) before level after (by rw [h, he]) x hx deps hm y hy
      · rw [← h]
        exact toposortLoop_nonempty _ _
    · simp at h

theorem toposort_none {d : Deps} (h : toposort d = none) : ∃ x, Relation.TransGen (DependsOn d) x x := by
  unfold toposort at h
  split at h
  · simp at h
  · simp only at h
    split at h
    · simp at h
    · rename_i hr
      have hne : (toposortLoop (d.prepare.length + 1) d.prepare).2.keys ≠ [] := by
        unfold keys
        simpa using hr
      obtain ⟨x, -, hx⟩ := cycle_of_successors (r := DependsOn d) hne (fun x hx => by
        obtain ⟨y, hy, hxy⟩ := toposortLoop_rest _ d.prepare (Nat.lt_succ_self _) (closed_prepare d) x hx
        exact ⟨y, hy, mem_prepare.1 hxy⟩)
      exact ⟨x, hx⟩

/-- Levels in any order inside each level give an order that respects the dependencies. -/
theorem order_of_levels {r : Nat → Nat → Prop} : ∀ {levels : List (List Nat)} {shuffled : List (List Nat)},
    List.Forall₂ List.Perm shuffled levels → levels.flatten.Nodup → LevelsRespect r levels →
    shuffled.flatten.Perm levels.flatten ∧ OrderRespects r shuffled.flatten := by
  intro levels shuffled hf hnd hl
  have hperm : shuffled.flatten.Perm levels.flatten := by
    clear hnd hl
    induction hf with
    | nil => exact List.Perm.refl _
    | cons h _ ih => exact h.append ih
  refine ⟨hperm, ?_⟩
  -- generalize over the levels before
  have gen : ∀ (before : List (List Nat)) (ls ss : List (List Nat)), List.Forall₂ List.Perm ss ls →
      levels = before ++ ls → OrderRespects r ss.flatten := by
    intro before ls ss h
    induction h generalizing before with
    | nil => intro _; exact List.Pairwise.nil
    | @cons s l ss ls hsl hss ih =>
      intro he
      have hrest := ih (before ++ [l]) (by rw [he]; simp)
      rw [List.flatten_cons]
      unfold OrderRespects at hrest ⊢
      rw [List.pairwise_append]
      have noBefore : ∀ x ∈ l, ∀ y, r x y → ∃ b ∈ before, y ∈ b := fun x hx y hxy => hl before l ls he x hx y hxy
      rw [he, List.flatten_append, List.flatten_cons, List.nodup_append] at hnd
      refine ⟨?_, hrest, ?_⟩
      · refine List.Pairwise.imp_of_mem ?_ (List.pairwise_of_forall (R := fun _ _ => True) (fun _ _ => trivial))
        intro x y hx hy _ hxy
        obtain ⟨b, hb, hyb⟩ := noBefore x (hsl.mem_iff.1 hx) y hxy
        exact hnd.2.2 y (List.mem_flatten.2 ⟨b, hb, hyb⟩) y (List.mem_append_left _ (hsl.mem_iff.1 hy)) rfl
      · intro x hx y hy hxy
        obtain ⟨b, hb, hyb⟩ := noBefore x (hsl.mem_iff.1 hx) y hxy
        have hyl : y ∈ ls.flatten := by
          have : ∀ (ss ls : List (List Nat)), List.Forall₂ List.Perm ss ls → ss.flatten.Perm ls.flatten := by
            intro ss ls h
            induction h with
            | nil => exact List.Perm.refl _
            | cons h _ ih => exact h.append ih
          exact (this ss ls hss).mem_iff.1 hy
        exact hnd.2.2 y (List.mem_flatten.2 ⟨b, hb, hyb⟩) y (List.mem_append_right _ hyl) rfl
  exact gen [] levels shuffled hf rfl

end Sampo
