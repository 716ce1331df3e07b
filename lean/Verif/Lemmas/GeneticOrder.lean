import Verif.Model.GeneticOrder
import Mathlib.Data.List.Perm.Basic
import Mathlib.Data.List.Sort
import Mathlib.Data.Int.Order.Basic

/-!
# Lemmas about crossover and mutation of orders
-/

namespace Sampo.Genetic

theorem foldlM_range_succ {s : Type} (f : s → Nat → Option s) (x : s) (n : Nat) :
    (List.range (n + 1)).foldlM f x = ((List.range n).foldlM f x).bind fun y => f y n := by
  rw [List.range_succ, List.foldlM_append]
  cases h : (List.range n).foldlM f x <;> simp

/-- Invariant rule for a loop over `range(n)`. -/
theorem foldlM_range_inv {s : Type} (f : s → Nat → Option s) (P : Nat → s → Prop) (x : s) (n : Nat) (h0 : P 0 x)
    (hs : ∀ k y, k < n → P k y → ∃ z, f y k = some z ∧ P (k + 1) z) :
    ∃ y, (List.range n).foldlM f x = some y ∧ P n y := by
  have : ∀ k, k ≤ n → ∃ y, (List.range k).foldlM f x = some y ∧ P k y := by
    intro k
    induction k with
    | zero => intro _; exact ⟨x, rfl, h0⟩
    | succ k ih =>
      intro hk
      obtain ⟨y, h1, h2⟩ := ih (by omega)
      obtain ⟨z, h3, h4⟩ := hs k y (by omega) h2
      exact ⟨z, by rw [foldlM_range_succ, h1]; exact h3, h4⟩
  exact this n (le_refl n)

private theorem filter_middle (h m t : List Nat) (hnd : (h ++ m ++ t).Nodup) :
    (h ++ m ++ t).filter (fun v => v ∉ h ++ t) = m := by
  rw [List.nodup_append, List.nodup_append] at hnd
  obtain ⟨⟨_, _, hhm⟩, _, hhmt⟩ := hnd
  rw [List.filter_append, List.filter_append]
  have e1 : h.filter (fun v => v ∉ h ++ t) = [] := by
    rw [List.filter_eq_nil_iff]; intro a ha; simp [ha]
  have e2 : t.filter (fun v => v ∉ h ++ t) = [] := by
    rw [List.filter_eq_nil_iff]; intro a ha; simp [ha]
  have e3 : m.filter (fun v => v ∉ h ++ t) = m := by
    rw [List.filter_eq_self]
    intro a ha
    have n1 : a ∉ h := fun hc => hhm a hc a ha rfl
    have n2 : a ∉ t := fun hc => hhmt a (by simp [ha]) a hc rfl
    simp [n1, n2]
  rw [e1, e2, e3]; simp

/-- Crossing over two orders of the same works. -/
theorem crossover_spec (child other : List Nat) (hp : other.Perm child) (hnd : child.Nodup) (amount head : Nat)
    (hd : Draw (child.length / 4) amount head) :
    ∃ c, crossover child other amount head = some c ∧ c.Perm child ∧
      ∀ R : Nat → Nat → Prop, child.Pairwise R → other.Pairwise R → c.Pairwise R := by
  unfold crossover
  by_cases ha : 1 < amount
  · obtain ⟨hd1, hd2, hd3⟩ := hd
    obtain ⟨h1, h2⟩ := hd3 ha
    have hlen : amount ≤ child.length := by omega
    rw [if_pos ha]
    simp only
    generalize hH : child.take head = H
    generalize hT : child.drop (child.length - (amount - head)) = T
    obtain ⟨M, hM, hMl⟩ : ∃ M, child = H ++ M ++ T ∧ M.length = child.length - head - (amount - head) := by
      refine ⟨(child.drop head).take (child.length - head - (amount - head)), ?_, ?_⟩
      · rw [← hH, ← hT, List.append_assoc]
        conv_lhs => rw [← List.take_append_drop head child]
        congr 1
        conv_lhs => rw [← List.take_append_drop (child.length - head - (amount - head)) (child.drop head)]
        rw [List.drop_drop]
        congr 2
        omega
      · rw [List.length_take, List.length_drop]; omega
    have hpart : (orderPart (H ++ T) other).Perm M := by
      unfold orderPart
      have h3 : (other.filter fun v => v ∉ H ++ T).Perm (child.filter fun v => v ∉ H ++ T) := hp.filter _
      rw [hM] at hnd
      have h4 := filter_middle H M T hnd
      rw [← hM] at h4
      rw [h4] at h3
      exact h3
    have hb : broadcast (child.length - head - (amount - head)) (orderPart (H ++ T) other) =
        some (orderPart (H ++ T) other) := by
      unfold broadcast
      rw [if_pos (by rw [hpart.length_eq, hMl])]
    rw [hb]
    refine ⟨_, rfl, ?_, ?_⟩
    · conv_rhs => rw [hM]
      exact (hpart.append_left H).append_right T
    · intro R hc ho
      rw [hM, List.pairwise_append, List.pairwise_append] at hc
      obtain ⟨⟨c1, c2, c3⟩, c4, c5⟩ := hc
      rw [List.pairwise_append, List.pairwise_append]
      refine ⟨⟨c1, ?_, ?_⟩, c4, ?_⟩
      · exact ho.sublist List.filter_sublist
      · exact fun a hA b hB => c3 a hA b (hpart.mem_iff.1 hB)
      · intro a hA b hB
        rw [List.mem_append] at hA
        exact c5 a (List.mem_append.2 (hA.imp_right hpart.mem_iff.1)) b hB
  · rw [if_neg ha]
    exact ⟨child, rfl, List.Perm.refl _, fun R hc _ => hc⟩

/-- Two sorted orders of the same works have the same sequence of priorities. -/
theorem map_prio_eq (prio : Nat → Int) {o1 o2 : List Nat} (hp : o1.Perm o2) (h1 : o1.Pairwise fun a b => prio a ≤ prio b)
    (h2 : o2.Pairwise fun a b => prio a ≤ prio b) : o1.map prio = o2.map prio := by
  refine (hp.map prio).eq_of_pairwise (le := (· ≤ ·)) (fun a b _ _ => le_antisymm) ?_ ?_
  · rw [List.pairwise_map]; exact h1
  · rw [List.pairwise_map]; exact h2

/-- The part of a sorted order before a position of another priority: the works of lower priorities. -/
theorem take_filter (prio : Nat → Int) {o : List Nat} (h : o.Pairwise fun a b => prio a ≤ prio b) (i : Nat) (p : Int)
    (hlo : ∀ q ∈ (o.map prio).take i, q < p) (hhi : (o.map prio)[i]? = some p) :
    o.take i = o.filter fun v => prio v < p := by
  conv_rhs => rw [← List.take_append_drop i o, List.filter_append]
  have e1 : (o.take i).filter (fun v => decide (prio v < p)) = o.take i := by
    rw [List.filter_eq_self]
    intro a ha
    have := hlo (prio a) (by rw [← List.map_take]; exact List.mem_map_of_mem ha)
    exact decide_eq_true this
  have e2 : (o.drop i).filter (fun v => decide (prio v < p)) = [] := by
    rw [List.filter_eq_nil_iff]
    intro a ha
    rw [decide_eq_true_eq, not_lt]
    rw [List.getElem?_map, Option.map_eq_some_iff] at hhi
    obtain ⟨x, hx, hxp⟩ := hhi
    obtain ⟨hi, hx⟩ := List.getElem?_eq_some_iff.1 hx
    rw [List.drop_eq_getElem_cons hi, List.mem_cons] at ha
    rcases ha with rfl | ha
    · rw [hx, hxp]
    · rw [← List.take_append_drop i o, List.drop_eq_getElem_cons hi, List.pairwise_append, List.pairwise_cons] at h
      have := h.2.1.1 a ha
      rw [hx, hxp] at this
      exact this
  rw [e1, e2, List.append_nil]

/-- Mating two orders of the same works sorted by priority. -/
theorem mate_spec (prio : Nat → Int) (draws : Nat → (Nat × Nat) × (Nat × Nat)) (hd : Draws draws) (o1 o2 : List Nat)
    (hne : o1 ≠ []) (hp : o2.Perm o1) (hnd : o1.Nodup) (h1 : o1.Pairwise fun a b => prio a ≤ prio b)
    (h2 : o2.Pairwise fun a b => prio a ≤ prio b) :
    ∃ c1 c2, mate prio draws o1 o2 = some (c1, c2) ∧ c1.Perm o1 ∧ c2.Perm o1 ∧
      ∀ R : Nat → Nat → Prop, o1.Pairwise R → o2.Pairwise R → c1.Pairwise R ∧ c2.Pairwise R := by
  unfold mate
  obtain ⟨v, hv⟩ : ∃ v, o1[0]? = some v := by
    cases o1 with
    | nil => exact absurd rfl hne
    | cons x xs => exact ⟨x, rfl⟩
  rw [hv]
  simp only
  have key := foldlM_range_inv (mateStep prio draws)
    (fun k s => s.2.1.Perm o1 ∧ s.2.2.Perm o1 ∧
      (∀ R : Nat → Nat → Prop, o1.Pairwise R → o2.Pairwise R → s.2.1.Pairwise R ∧ s.2.2.Pairwise R) ∧
      (o1.map prio)[k - 1]? = some s.1)
    (prio v, o1, o2) o1.length
    ⟨List.Perm.refl _, hp, fun R a b => ⟨a, b⟩, by simp [hv]⟩ ?_
  · obtain ⟨y, hy, hP⟩ := key
    refine ⟨y.2.1, y.2.2, by rw [hy]; rfl, hP.1, hP.2.1, hP.2.2.1⟩
  · rintro k ⟨cur, a, b⟩ hk ⟨ha, hb, hR, hcur⟩
    simp only at ha hb hR hcur
    obtain ⟨sa, sb⟩ := hR _ h1 h2
    have ma := map_prio_eq prio ha sa h1
    have mb := map_prio_eq prio hb sb h1
    have hka : k < a.length := by rw [ha.length_eq]; exact hk
    have hga : a[k]? = some a[k] := List.getElem?_eq_getElem hka
    have hmk : (o1.map prio)[k]? = some (prio a[k]) := by
      rw [← ma, List.getElem?_map, hga]; rfl
    unfold mateStep
    simp only [hga]
    by_cases hpr : prio a[k] = cur
    · rw [if_pos hpr]
      refine ⟨_, rfl, ha, hb, hR, ?_⟩
      simp only [Nat.add_sub_cancel]
      rw [hmk, hpr]
    · rw [if_neg hpr]
      have hk0 : k ≠ 0 := by
        rintro rfl
        simp only [Nat.zero_sub] at hcur
        rw [hmk] at hcur
        exact hpr (Option.some.inj hcur)
      -- everything before position `k` has a lower priority
      have hlo : ∀ q ∈ (o1.map prio).take k, q < prio a[k] := by
        have hs : (o1.map prio).Pairwise (· ≤ ·) := by rw [List.pairwise_map]; exact h1
        intro q hq
        obtain ⟨j, hj, rfl⟩ := List.getElem_of_mem hq
        rw [List.length_take] at hj
        rw [List.getElem_take]
        obtain ⟨hk1, hcur'⟩ := List.getElem?_eq_some_iff.1 hcur
        obtain ⟨hk2, hmk'⟩ := List.getElem?_eq_some_iff.1 hmk
        rw [List.pairwise_iff_getElem] at hs
        have e1 : (o1.map prio)[j] ≤ (o1.map prio)[k - 1] := by
          by_cases hjk : j = k - 1
          · subst hjk; exact le_refl _
          · exact hs _ _ _ _ (by omega)
        have e2 : (o1.map prio)[k - 1] ≤ (o1.map prio)[k] := hs _ _ _ _ (by omega)
        rw [hcur'] at e1 e2
        rw [hmk'] at e2
        exact lt_of_le_of_lt e1 (lt_of_le_of_ne e2 (Ne.symm hpr))
      have ta := take_filter prio sa k (prio a[k]) (by rw [ma]; exact hlo) (by rw [ma]; exact hmk)
      have tb := take_filter prio sb k (prio a[k]) (by rw [mb]; exact hlo) (by rw [mb]; exact hmk)
      have hab : (b.take k).Perm (a.take k) := by
        rw [ta, tb]; exact (hb.trans ha.symm).filter _
      have hla : (a.take k).length = k := by rw [List.length_take]; omega
      have hlb : (b.take k).length = k := by rw [hab.length_eq, hla]
      have nda : (a.take k).Nodup := (ha.nodup_iff.2 hnd).sublist (List.take_sublist _ _)
      obtain ⟨c, hc1, hc2, hc3⟩ := crossover_spec (a.take k) (b.take k) hab nda (draws k).1.1 (draws k).1.2
        (by rw [hla]; exact (hd k).1)
      obtain ⟨e, he1, he2, he3⟩ := crossover_spec (b.take k) (a.take k) hab.symm (hab.nodup_iff.2 nda) (draws k).2.1
        (draws k).2.2 (by rw [hlb]; exact (hd k).2)
      refine ⟨(prio a[k], c ++ a.drop k, e ++ b.drop k), ?_, ?_, ?_, ?_, ?_⟩
      · unfold mateParts; rw [hc1, he1]; rfl
      · refine List.Perm.trans ?_ ha
        conv_rhs => rw [← List.take_append_drop k a]
        exact hc2.append_right _
      · refine List.Perm.trans ?_ hb
        conv_rhs => rw [← List.take_append_drop k b]
        exact he2.append_right _
      · intro R r1 r2
        obtain ⟨ra, rb⟩ := hR R r1 r2
        rw [← List.take_append_drop k a, List.pairwise_append] at ra
        rw [← List.take_append_drop k b, List.pairwise_append] at rb
        simp only
        rw [List.pairwise_append, List.pairwise_append]
        exact ⟨⟨hc3 R ra.1 rb.1, ra.2.1, fun x hx y hy => ra.2.2 x (hc2.mem_iff.1 hx) y hy⟩,
          ⟨he3 R rb.1 ra.1, rb.2.1, fun x hx y hy => rb.2.2 x (he2.mem_iff.1 hx) y hy⟩⟩
      · simp only [Nat.add_sub_cancel]
        exact hmk

end Sampo.Genetic
