import Verif.Spec.Restructure
import Mathlib.Tactic.Linarith
import Mathlib.Tactic.Ring
import Mathlib.Tactic.Push
import Mathlib.Data.List.Chain

/-! # Splitting works into stages -/

namespace Sampo.Restructure

/-! ### Dictionary of matched edges -/

def key (e : OEdge × Bool) : Nat × Nat := if e.2 then (e.1.finish, e.1.start) else (e.1.start, e.1.finish)

theorem matchEdges_of_not_mem {p c : NewId} {es : List (OEdge × Bool)} {k : Nat × Nat} :
    ∀ {d : Nat × Nat → Option NewId}, k ∉ es.map key → matchEdges p c es d k = d k := by
  induction es with
  | nil => intro d _; rfl
  | cons e es ih =>
    intro d h
    rw [List.map_cons, List.mem_cons, not_or] at h
    obtain ⟨e, b⟩ := e
    rw [matchEdges, ih h.2]
    have := h.1
    rw [key] at this
    exact Function.update_of_ne this _ _

theorem matchEdges_of_mem {p c : NewId} {es : List (OEdge × Bool)} {x : OEdge × Bool} :
    ∀ {d : Nat × Nat → Option NewId}, (es.map key).Nodup → x ∈ es →
      matchEdges p c es d (key x) = some (if x.2 then c else p) := by
  induction es with
  | nil => intro d _ h; cases h
  | cons e es ih =>
    intro d hn h
    rw [List.map_cons, List.nodup_cons] at hn
    obtain ⟨e, b⟩ := e
    rw [matchEdges]
    rcases List.mem_cons.mp h with rfl | h
    · rw [matchEdges_of_not_mem hn.1, key, Function.update_self]
    · exact ih hn.2 h

/-! ### Chains of stages -/

def chainEdges : List NewId → List NewEdge
  | a :: b :: l => ⟨a, b, 0, .inseparable⟩ :: chainEdges (b :: l)
  | _ => []

theorem chainEdges_snoc (l : List NewId) (a b : NewId) :
    chainEdges (l ++ [a, b]) = chainEdges (l ++ [a]) ++ [⟨a, b, 0, .inseparable⟩] := by
  induction l with
  | nil => rfl
  | cons x l ih =>
    cases l with
    | nil => rfl
    | cons y l => simp only [List.cons_append, chainEdges] at ih ⊢; rw [ih]

theorem chainEdges_isChain (l : List NewId) : l.IsChain fun a b => ⟨a, b, 0, .inseparable⟩ ∈ chainEdges l := by
  induction l with
  | nil => exact List.IsChain.nil
  | cons x l ih =>
    cases l with
    | nil => exact List.IsChain.singleton _
    | cons y l =>
      rw [List.isChain_cons_cons]
      refine ⟨by simp [chainEdges], ih.imp fun a b h => ?_⟩
      rw [chainEdges]
      exact List.mem_cons_of_mem _ h

theorem mem_chainEdges {l : List NewId} {e : NewEdge} (h : e ∈ chainEdges l) :
    ∃ l₁ l₂, l = l₁ ++ e.start :: e.finish :: l₂ ∧ e.lag = 0 ∧ e.type = .inseparable := by
  induction l with
  | nil => cases h
  | cons x l ih =>
    cases l with
    | nil => cases h
    | cons y l =>
      rw [chainEdges] at h
      rcases List.mem_cons.mp h with rfl | h
      · exact ⟨[], l, rfl, rfl, rfl⟩
      · obtain ⟨l₁, l₂, h1, h2⟩ := ih h
        exact ⟨x :: l₁, l₂, by rw [h1]; rfl, h2⟩

/-! ### Amounts -/

def vol (S : List (NewId × Unit_)) : ℚ := (S.map (·.2.volume)).sum
def amt (r : Nat) (S : List (NewId × Unit_)) : Int := (S.map fun n => n.2.amounts.getD r 0).sum

theorem vol_snoc (S : List (NewId × Unit_)) (x : NewId × Unit_) : vol (S ++ [x]) = vol S + x.2.volume := by simp [vol]
theorem amt_snoc (r : Nat) (S : List (NewId × Unit_)) (x : NewId × Unit_) :
    amt r (S ++ [x]) = amt r S + x.2.amounts.getD r 0 := by simp [amt]

theorem getD_zipWith (f : Int → Int → Int) (h0 : f 0 0 = 0) (r : Nat) :
    ∀ {l l' : List Int}, l.length = l'.length → (List.zipWith f l l').getD r 0 = f (l.getD r 0) (l'.getD r 0) := by
  induction r with
  | zero => intro l l' h; cases l <;> cases l' <;> simp_all
  | succ r ih =>
    intro l l' h
    cases l with
    | nil => cases l' <;> simp_all
    | cons a l =>
      cases l' with
      | nil => simp at h
      | cons b l' => simpa using ih (by simpa using h)

theorem getD_stageAmounts (wu : Unit_) (p : ℚ) (r : Nat) :
    (stageAmounts wu p).getD r 0 = trunc (p * (wu.amounts.getD r 0 : Int)) := by
  rw [stageAmounts, List.getD_eq_getElem?_getD, List.getElem?_map, List.getD_eq_getElem?_getD]
  cases wu.amounts[r]? with
  | none => simp [trunc]
  | some a => rfl

theorem trunc_nonneg {q : ℚ} (h : 0 ≤ q) : 0 ≤ trunc q := by rw [trunc, if_pos h]; exact Int.floor_nonneg.mpr h
theorem trunc_le {q : ℚ} (h : 0 ≤ q) : (trunc q : ℚ) ≤ q := by rw [trunc, if_pos h]; exact Int.floor_le q

/-! ### Making the stages -/

/-- Stages `S` made so far for work `v`, up to the accumulation `prev`; `done` are the proportions taken so far. -/
structure MidInv (P : Prop) (opt : Bool) (wu : Unit_) (v : Nat) (N : New) (a₀ : ℚ) (done : List (ℚ × OEdge × Bool)) (prev : ℚ)
    (s : Split) (S : List (NewId × Unit_)) : Prop where
  nodes : s.new.nodes = N.nodes ++ S
  ids : S.map (·.1) = (List.range (s.i + 1)).map (NewId.stage v)
  cur : s.cur = .stage v s.i
  edges : s.new.edges = N.edges ++ chainEdges (S.map (·.1))
  volume : vol S = wu.volume * prev
  head : vol (S.take 1) = wu.volume * a₀
  len : s.total.length = wu.amounts.length
  total : ∀ r, s.total.getD r 0 = amt r S
  lens : ∀ n ∈ S, n.2.amounts.length = wu.amounts.length
  prev_nonneg : 0 ≤ prev
  below : ∀ r, 0 ≤ wu.amounts.getD r 0 → (s.total.getD r 0 : ℚ) ≤ prev * (wu.amounts.getD r 0 : Int)
  amounts_nonneg : ∀ r, 0 ≤ wu.amounts.getD r 0 → ∀ n ∈ S, 0 ≤ n.2.amounts.getD r 0
  volume_nonneg : 0 ≤ wu.volume → ∀ n ∈ S, 0 ≤ n.2.volume
  dict_same : ∀ k, k ∉ done.map (fun x => key x.2) → s.new.dict k = N.dict k
  dict_off : opt = false → s.new.dict = N.dict
  pend : ∀ e ∈ s.pending, key e ∈ done.map (fun x => key x.2)
  dict_on : P → ∃ M, done = M ++ s.pending.map (fun e => (prev, e)) ∧
    ∀ x ∈ M, ∃ j < s.i, s.new.dict (key x.2) = some (if x.2.2 then .stage v (j + 1) else .stage v j) ∧
      vol (S.take (j + 1)) = wu.volume * x.1

theorem midInv_first {P : Prop} {opt : Bool} {wu : Unit_} {v : Nat} {N : New} {a : ℚ} {e : OEdge × Bool} (ha : 0 ≤ a) (hP : P → opt = true) :
    MidInv P opt wu v N a [(a, e)] a (firstStage opt wu v N a e) [(.stage v 0, ⟨wu.volume * a, stageAmounts wu a⟩)] where
  nodes := rfl
  ids := rfl
  cur := rfl
  edges := by simp [firstStage, chainEdges]
  volume := by simp [vol]
  head := by simp [vol]
  len := by simp [firstStage, stageAmounts]
  total := by simp [firstStage, amt]
  lens := by simp [stageAmounts]
  prev_nonneg := ha
  below := by
    intro r h
    simp only [firstStage, getD_stageAmounts]
    exact trunc_le (mul_nonneg ha (by exact_mod_cast h))
  amounts_nonneg := by
    intro r h n hn
    rw [List.mem_singleton.mp hn, getD_stageAmounts]
    exact trunc_nonneg (mul_nonneg ha (by exact_mod_cast h))
  volume_nonneg := by
    intro h n hn
    rw [List.mem_singleton.mp hn]
    exact mul_nonneg h ha
  dict_same := fun _ _ => rfl
  dict_off := fun _ => rfl
  pend := by
    intro e' he'
    cases opt with
    | false => cases he'
    | true => rw [List.mem_singleton.mp he']; simp
  dict_on := by
    intro p
    have := hP p
    subst this
    exact ⟨[], rfl, by simp⟩

theorem MidInv.length {P : Prop} {opt : Bool} {wu : Unit_} {v : Nat} {N : New} {a₀ : ℚ} {done : List (ℚ × OEdge × Bool)} {prev : ℚ}
    {s : Split} {S : List (NewId × Unit_)} (h : MidInv P opt wu v N a₀ done prev s S) : S.length = s.i + 1 := by
  simpa using congrArg List.length h.ids

theorem MidInv.same {P : Prop} {opt : Bool} {wu : Unit_} {v : Nat} {N : New} {a₀ : ℚ} {done : List (ℚ × OEdge × Bool)} {prev : ℚ}
    {s : Split} {S : List (NewId × Unit_)} (h : MidInv P opt wu v N a₀ done prev s S) (hP : P → opt = true) (e : OEdge × Bool) :
    MidInv P opt wu v N a₀ (done ++ [(prev, e)]) prev (if opt then { s with pending := s.pending ++ [e] } else s) S := by
  cases opt with
  | false => exact { h with
      dict_same := fun k hk => h.dict_same k fun hk' => hk (by rw [List.map_append]; exact List.mem_append_left _ hk')
      pend := fun e' he' => by rw [List.map_append]; exact List.mem_append_left _ (h.pend e' he')
      dict_on := fun p => absurd (hP p) (by simp) }
  | true => exact { h with
      dict_same := fun k hk => h.dict_same k fun hk' => hk (by rw [List.map_append]; exact List.mem_append_left _ hk')
      pend := fun e' he' => by
        rw [List.map_append]
        rcases List.mem_append.mp he' with he' | he'
        · exact List.mem_append_left _ (h.pend e' he')
        · rw [List.mem_singleton.mp he']; simp
      dict_on := by
        intro p
        obtain ⟨M, h1, h2⟩ := h.dict_on p
        exact ⟨M, by simp [h1], h2⟩ }

theorem chain_ids_snoc {S : List (NewId × Unit_)} {v i : Nat} (h : S.map (·.1) = (List.range (i + 1)).map (NewId.stage v))
    (b : NewId) (u : Unit_) : chainEdges ((S ++ [(b, u)]).map (·.1)) = chainEdges (S.map (·.1)) ++
      [⟨.stage v i, b, 0, .inseparable⟩] := by
  rw [List.map_append, h, List.range_succ, List.map_append, List.map_cons, List.map_nil, List.map_cons, List.map_nil,
    List.append_assoc]
  exact chainEdges_snoc _ _ _

theorem MidInv.next {P : Prop} {opt : Bool} {wu : Unit_} {v : Nat} {N : New} {a₀ : ℚ} {done : List (ℚ × OEdge × Bool)} {prev : ℚ}
    {s : Split} {S : List (NewId × Unit_)} (h : MidInv P opt wu v N a₀ done prev s S) {a : ℚ} (hP : P → opt = true) (ha : prev ≤ a)
    (e : OEdge × Bool) (hn : P → ((done ++ [(a, e)]).map fun x => key x.2).Nodup) :
    MidInv P opt wu v N a₀ (done ++ [(a, e)]) a (nextStage opt wu v s (a - prev) e)
      (S ++ [(.stage v (s.i + 1), ⟨wu.volume * (a - prev), stageAmounts wu (a - prev)⟩)]) := by
  have hp : 0 ≤ a - prev := by linarith
  have hlen : s.total.length = (stageAmounts wu (a - prev)).length := by rw [h.len]; simp [stageAmounts]
  have htot : ∀ r, (nextStage opt wu v s (a - prev) e).total.getD r 0 =
      s.total.getD r 0 + (stageAmounts wu (a - prev)).getD r 0 := fun r => getD_zipWith (· + ·) rfl r hlen
  refine ⟨?_, ?_, rfl, ?_, ?_, ?_, ?_, ?_, ?_, ?_, ?_, ?_, ?_, ?_, ?_, ?_, ?_⟩
  · simp [nextStage, h.nodes]
  · rw [List.map_append, h.ids, nextStage, List.range_succ (n := s.i + 1), List.map_append]; rfl
  · rw [chain_ids_snoc h.ids, nextStage, h.edges, h.cur, List.append_assoc]
  · rw [vol_snoc, h.volume]; ring
  · rw [List.take_append_of_le_length (by rw [h.length]; omega)]; exact h.head
  · simp [nextStage, hlen, stageAmounts]
  · intro r; rw [htot, amt_snoc, h.total]
  · intro n hn
    rcases List.mem_append.mp hn with hn | hn
    · exact h.lens n hn
    · rw [List.mem_singleton.mp hn]; simp [stageAmounts]
  · exact h.prev_nonneg.trans ha
  · intro r hr
    rw [htot, getD_stageAmounts]
    have h1 := h.below r hr
    have h2 := trunc_le (mul_nonneg hp (show (0 : ℚ) ≤ ((wu.amounts.getD r 0 : Int) : ℚ) by exact_mod_cast hr))
    push_cast at h1 h2 ⊢
    linarith
  · intro r hr n hn
    rcases List.mem_append.mp hn with hn | hn
    · exact h.amounts_nonneg r hr n hn
    · rw [List.mem_singleton.mp hn, getD_stageAmounts]
      exact trunc_nonneg (mul_nonneg hp (by exact_mod_cast hr))
  · intro hv n hn
    rcases List.mem_append.mp hn with hn | hn
    · exact h.volume_nonneg hv n hn
    · rw [List.mem_singleton.mp hn]; exact mul_nonneg hv hp
  · intro k hk
    rw [List.map_append, List.mem_append, not_or] at hk
    rw [nextStage]
    cases opt with
    | false => exact h.dict_same k hk.1
    | true =>
      simp only [if_true]
      rw [matchEdges_of_not_mem]
      · exact h.dict_same k hk.1
      · intro hk'
        obtain ⟨y, hy, rfl⟩ := List.mem_map.mp hk'
        exact hk.1 (h.pend y hy)
  · rintro rfl; rw [nextStage]; exact h.dict_off rfl
  · intro e' he'
    rw [nextStage] at he'
    cases opt with
    | false => cases he'
    | true => rw [List.mem_singleton.mp he']; simp
  · intro p
    have ho := hP p
    subst ho
    obtain ⟨M, h1, h2⟩ := h.dict_on p
    have hnd := hn p
    rw [List.map_append, h1, List.map_append, List.map_map] at hnd
    have hnd1 := (List.nodup_append.mp hnd).1
    have hpend : (s.pending.map key).Nodup := (List.nodup_append.mp hnd1).2.1
    refine ⟨done, rfl, ?_⟩
    intro x hx
    rw [h1] at hx
    rcases List.mem_append.mp hx with hx | hx
    · obtain ⟨j, hj, h3, h4⟩ := h2 x hx
      refine ⟨j, Nat.lt_succ_of_lt hj, ?_, ?_⟩
      · simp only [nextStage, if_true]
        rw [matchEdges_of_not_mem, h3]
        intro hk
        exact (List.nodup_append.mp hnd1).2.2 _ (List.mem_map_of_mem hx) _ hk rfl
      · rw [List.take_append_of_le_length (by rw [h.length]; omega)]; exact h4
    · obtain ⟨y, hy, rfl⟩ := List.mem_map.mp hx
      refine ⟨s.i, Nat.lt_succ_self _, ?_, ?_⟩
      · simp only [nextStage, if_true]
        rw [matchEdges_of_mem hpend hy, h.cur]
      · rw [List.take_append_of_le_length (by rw [h.length]), ← h.length, List.take_length]; exact h.volume

theorem midStages_inv {P : Prop} {opt : Bool} {wu : Unit_} {v : Nat} {N : New} {a₀ : ℚ} (rest : List (ℚ × OEdge × Bool)) :
    ∀ {done : List (ℚ × OEdge × Bool)} {prev : ℚ} {s : Split} {S : List (NewId × Unit_)},
      MidInv P opt wu v N a₀ done prev s S → (rest.map (·.1)).Pairwise (· ≤ ·) → (∀ x ∈ rest, prev ≤ x.1) →
      (P → opt = true) → (P → ((done ++ rest).map fun x => key x.2).Nodup) →
      ∃ S', MidInv P opt wu v N a₀ (done ++ rest) (midStages opt wu v prev rest s).2 (midStages opt wu v prev rest s).1 S' ∧
        (midStages opt wu v prev rest s).2 = (rest.map (·.1)).getLast?.getD prev := by
  induction rest with
  | nil => intro done prev s S h _ _ _ _; exact ⟨S, by rw [List.append_nil]; exact h, rfl⟩
  | cons x rest ih =>
    intro done prev s S h hs hle hP hn
    obtain ⟨a, e⟩ := x
    rw [List.map_cons, List.pairwise_cons] at hs
    have hn' : P → ((done ++ [(a, e)] ++ rest).map fun x => key x.2).Nodup := by
      intro ho; rw [List.append_assoc]; exact hn ho
    have hle' : ∀ y ∈ rest, a ≤ y.1 := fun y hy => hs.1 _ (List.mem_map_of_mem hy)
    have hlast : ((((a, e) :: rest).map (·.1)).getLast?).getD prev = ((rest.map (·.1)).getLast?).getD a := by
      rw [List.map_cons, List.getLast?_cons]; simp
    rw [midStages]
    by_cases heq : a = prev
    · subst heq
      rw [if_pos rfl, hlast]
      obtain ⟨S', h1, h2⟩ := ih (h.same hP e) hs.2 hle' hP hn'
      rw [List.append_assoc] at h1
      exact ⟨S', h1, h2⟩
    · rw [if_neg heq, hlast]
      obtain ⟨S', h1, h2⟩ := ih (h.next hP (hle _ List.mem_cons_self) e (fun ho => by
        have := hn' ho
        rw [List.map_append] at this
        exact (List.nodup_append.mp this).1)) hs.2 hle' hP hn'
      rw [List.append_assoc] at h1
      exact ⟨S', h1, h2⟩

/-! ### One work -/

theorem proportion_range (G : OGraph) (opt : Bool) (e : OEdge) (b : Bool) :
    0 ≤ proportion G opt e b ∧ proportion G opt e b ≤ 1 := by
  rw [proportion]
  by_cases h : opt = true ∧ 0 < e.lag ∧ e.lag ≤ (G.wu e.start).volume
  · rw [if_pos h]
    have hv : 0 < (G.wu e.start).volume := h.2.1.trans_le h.2.2
    have h1 : e.lag / (G.wu e.start).volume ≤ 1 := (div_le_one hv).mpr h.2.2
    have h0 : 0 ≤ e.lag / (G.wu e.start).volume := div_nonneg h.2.1.le hv.le
    cases b <;> simp only [Bool.false_eq_true, if_true, if_false] <;> constructor <;>
      rw [mul_div_assoc] <;> linarith
  · rw [if_neg h]; cases b <;> norm_num

theorem proportion_off (G : OGraph) (e : OEdge) (b : Bool) : proportion G false e b = if b then 1 else 0 := by
  simp [proportion]

theorem accums_perm (G : OGraph) (opt : Bool) (es : List (OEdge × Bool)) :
    (accums G opt es).Perm (es.map fun e => (proportion G opt e.1 e.2, e.1, e.2)) := List.perm_insertionSort _ _

theorem accums_sorted (G : OGraph) (opt : Bool) (es : List (OEdge × Bool)) :
    ((accums G opt es).map (·.1)).Pairwise (· ≤ ·) := by
  rw [List.pairwise_map]
  haveI : Std.Total (fun a b : ℚ × OEdge × Bool => a.1 ≤ b.1) := ⟨fun a b => le_total a.1 b.1⟩
  haveI : IsTrans (ℚ × OEdge × Bool) (fun a b => a.1 ≤ b.1) := ⟨fun _ _ _ h1 h2 => le_trans h1 h2⟩
  exact List.pairwise_insertionSort _ _

/-- What splitting work `v` adds: stages `S`, `k` of them before the last one. -/
structure SplitSpec (P : Prop) (G : OGraph) (opt : Bool) (v : Nat) (N N' : New) (S : List (NewId × Unit_)) (k : Nat) : Prop where
  nodes : N'.nodes = N.nodes ++ S
  ids : S.map (·.1) = (List.range k).map (NewId.stage v) ++ [.last v]
  edges : N'.edges = N.edges ++ chainEdges (S.map (·.1))
  zero : k = 0 ↔ restructuring G opt v = []
  volume : vol S = (G.wu v).volume
  amounts : ∀ r, amt r S = (G.wu v).amounts.getD r 0
  lens : ∀ n ∈ S, n.2.amounts.length = (G.wu v).amounts.length
  amounts_nonneg : ∀ r, 0 ≤ (G.wu v).amounts.getD r 0 → ∀ n ∈ S, 0 ≤ n.2.amounts.getD r 0
  volume_nonneg : 0 ≤ (G.wu v).volume → ∀ n ∈ S, 0 ≤ n.2.volume
  dict_same : ∀ x, x ∉ (restructuring G opt v).map key → N'.dict x = N.dict x
  dict_off : opt = false → N'.dict = N.dict
  dict_on : P → ∀ x ∈ restructuring G opt v, ∃ j < k,
    N'.dict (key x) = some (if x.2 then (if j + 1 < k then .stage v (j + 1) else .last v) else .stage v j) ∧
      vol (S.take (j + 1)) = (G.wu v).volume * proportion G opt x.1 x.2
  cuts_off : opt = false → ∀ x ∈ restructuring G opt v,
    vol (S.take (if x.2 then k else 1)) = (G.wu v).volume * proportion G opt x.1 x.2

theorem split_spec {P : Prop} (G : OGraph) (opt : Bool) (v : Nat) (N : New) (hP : P → opt = true)
    (hn : P → ((restructuring G opt v).map key).Nodup) : ∃ S k, SplitSpec P G opt v N (split G opt v N) S k := by
  have hperm := accums_perm G opt (restructuring G opt v)
  have hsort := accums_sorted G opt (restructuring G opt v)
  have hkeys : ((accums G opt (restructuring G opt v)).map fun x => key x.2).Perm ((restructuring G opt v).map key) := by
    have := hperm.map fun x => key x.2
    rwa [List.map_map] at this
  rw [split]
  cases hacc : accums G opt (restructuring G opt v) with
  | nil =>
    rw [hacc] at hperm
    have hr : restructuring G opt v = [] := List.map_eq_nil_iff.mp (List.nil_perm.mp hperm)
    refine ⟨[(.last v, G.wu v)], 0, ⟨rfl, rfl, by simp [chainEdges], by simp [hr], by simp [vol], by simp [amt], by simp, by simp,
      by simp, fun _ _ => rfl, fun _ => rfl, by simp [hr], by simp [hr]⟩⟩
  | cons x rest =>
    obtain ⟨a, e⟩ := x
    rw [hacc] at hperm hsort hkeys
    have hrange : ∀ x ∈ (a, e) :: rest, 0 ≤ x.1 ∧ x.1 ≤ 1 := by
      intro x hx
      obtain ⟨y, _, rfl⟩ := List.mem_map.mp (hperm.subset hx)
      exact proportion_range _ _ _ _
    have hne : restructuring G opt v ≠ [] := by
      intro h; rw [h] at hperm; exact absurd (List.perm_nil.mp hperm) (by simp)
    rw [List.map_cons, List.pairwise_cons] at hsort
    obtain ⟨S, h, hlast⟩ := midStages_inv (P := P) (opt := opt) (wu := G.wu v) (v := v) (N := N) (a₀ := a) rest
      (midInv_first (e := e) (hrange _ List.mem_cons_self).1 hP)
      hsort.2 (fun x hx => hsort.1 _ (List.mem_map_of_mem hx)) hP (fun ho => hkeys.nodup_iff.mpr (hn ho))
    show ∃ S k, SplitSpec P G opt v N (lastStage opt (G.wu v) v
      (midStages opt (G.wu v) v a rest (firstStage opt (G.wu v) v N a e)).1
      (midStages opt (G.wu v) v a rest (firstStage opt (G.wu v) v N a e)).2) S k
    generalize midStages opt (G.wu v) v a rest (firstStage opt (G.wu v) v N a e) = r at h hlast ⊢
    obtain ⟨s, b⟩ := r
    dsimp only at h hlast ⊢
    have hb : b ≤ 1 := by
      rw [hlast]
      cases hg : (rest.map (·.1)).getLast? with
      | none => exact (hrange _ List.mem_cons_self).2
      | some q =>
        obtain ⟨y, hy, rfl⟩ := List.mem_map.mp (List.mem_of_getLast? hg)
        exact (hrange _ (List.mem_cons_of_mem _ hy)).2
    have htop : ∀ x ∈ (a, e) :: rest, x.1 ≤ b := by
      intro x hx
      rw [hlast]
      rcases List.eq_nil_or_concat' rest with rfl | ⟨l, y, rfl⟩
      · simp only [List.mem_singleton] at hx; subst hx; simp
      · simp only [List.map_append, List.map_cons, List.map_nil, List.getLast?_append_cons, List.getLast?_singleton,
          Option.getD_some]
        rcases List.mem_cons.mp hx with rfl | hx
        · exact hsort.1 _ (by simp)
        · rcases List.mem_append.mp hx with hx | hx
          · have := hsort.2
            rw [List.map_append, List.pairwise_append] at this
            exact this.2.2 _ (List.mem_map_of_mem hx) _ (by simp)
          · rw [List.mem_singleton.mp hx]
    have hlen : (G.wu v).amounts.length = s.total.length := h.len.symm
    have hrest : ∀ r, (List.zipWith (· - ·) (G.wu v).amounts s.total).getD r 0 = (G.wu v).amounts.getD r 0 - s.total.getD r 0 :=
      fun r => getD_zipWith (· - ·) rfl r hlen
    have hS := h.length
    refine ⟨S ++ [(.last v, ⟨(G.wu v).volume * (1 - b), List.zipWith (· - ·) (G.wu v).amounts s.total⟩)], s.i + 1,
      ⟨?_, ?_, ?_, by simp [hne], ?_, ?_, ?_, ?_, ?_, ?_, ?_, ?_, ?_⟩⟩
    · simp [lastStage, h.nodes]
    · rw [List.map_append, h.ids]; rfl
    · rw [chain_ids_snoc h.ids, lastStage, h.edges, h.cur, List.append_assoc]
    · rw [vol_snoc, h.volume]; ring
    · intro r; rw [amt_snoc, hrest, h.total]; ring
    · intro n hn
      rcases List.mem_append.mp hn with hn | hn
      · exact h.lens n hn
      · rw [List.mem_singleton.mp hn]; simp [hlen]
    · intro r hr n hn
      rcases List.mem_append.mp hn with hn | hn
      · exact h.amounts_nonneg r hr n hn
      · rw [List.mem_singleton.mp hn, hrest]
        have h1 := h.below r hr
        have h2 : (0 : ℚ) ≤ ((G.wu v).amounts.getD r 0 : Int) := by exact_mod_cast hr
        have h3 : b * ((G.wu v).amounts.getD r 0 : Int) ≤ ((G.wu v).amounts.getD r 0 : Int) := by nlinarith
        have h4 : ((s.total.getD r 0 : Int) : ℚ) ≤ ((G.wu v).amounts.getD r 0 : Int) := h1.trans h3
        have h5 : s.total.getD r 0 ≤ (G.wu v).amounts.getD r 0 := by exact_mod_cast h4
        omega
    · intro hv n hn
      rcases List.mem_append.mp hn with hn | hn
      · exact h.volume_nonneg hv n hn
      · rw [List.mem_singleton.mp hn]; exact mul_nonneg hv (by linarith)
    · intro x hx
      have hx' : x ∉ ([(a, e)] ++ rest).map (fun x => key x.2) := fun hk => hx (hkeys.subset hk)
      rw [lastStage]
      cases opt with
      | false => exact h.dict_same x hx'
      | true =>
        simp only [if_true]
        rw [matchEdges_of_not_mem]
        · exact h.dict_same x hx'
        · intro hk
          obtain ⟨y, hy, rfl⟩ := List.mem_map.mp hk
          exact hx' (h.pend y hy)
    · rintro rfl; rw [lastStage]; exact h.dict_off rfl
    · intro p x hx
      have ho := hP p
      subst ho
      obtain ⟨M, h1, h2⟩ := h.dict_on p
      have hnd : (([(a, e)] ++ rest).map fun x => key x.2).Nodup := hkeys.nodup_iff.mpr (hn p)
      rw [h1, List.map_append, List.map_map] at hnd
      have hpend : (s.pending.map key).Nodup := (List.nodup_append.mp hnd).2.1
      have hx' : (proportion G true x.1 x.2, x) ∈ [(a, e)] ++ rest := hperm.symm.subset (List.mem_map_of_mem
        (f := fun e : OEdge × Bool => (proportion G true e.1 e.2, e.1, e.2)) hx)
      rw [h1] at hx'
      rcases List.mem_append.mp hx' with hx' | hx'
      · obtain ⟨j, hj, h3, h4⟩ := h2 _ hx'
        refine ⟨j, by omega, ?_, ?_⟩
        · simp only [lastStage, if_true]
          rw [matchEdges_of_not_mem, h3, if_pos (show j + 1 < s.i + 1 by omega)]
          intro hk
          exact (List.nodup_append.mp hnd).2.2 _ (List.mem_map_of_mem (f := fun x : ℚ × OEdge × Bool => key x.2) hx') _ hk rfl
        · rw [List.take_append_of_le_length (by omega)]; exact h4
      · obtain ⟨y, hy, hxy⟩ := List.mem_map.mp hx'
        obtain ⟨hq, rfl⟩ := Prod.mk.inj hxy
        refine ⟨s.i, by omega, ?_, ?_⟩
        · simp only [lastStage, if_true]
          rw [matchEdges_of_mem hpend hy, h.cur, if_neg (show ¬ s.i + 1 < s.i + 1 by omega)]
        · rw [List.take_append_of_le_length (by omega), ← hS, List.take_length, h.volume, hq]
    · rintro rfl x hx
      have hx' : (proportion G false x.1 x.2, x) ∈ (a, e) :: rest := hperm.symm.subset (List.mem_map_of_mem
        (f := fun e : OEdge × Bool => (proportion G false e.1 e.2, e.1, e.2)) hx)
      obtain ⟨x1, x2⟩ := x
      cases x2 with
      | true =>
        rw [if_pos rfl, List.take_append_of_le_length (by omega), ← hS, List.take_length, h.volume]
        have h1 := htop _ hx'
        simp only [proportion_off, if_true] at h1 ⊢
        rw [le_antisymm hb h1]
      | false =>
        rw [if_neg (by simp), List.take_append_of_le_length (by omega), h.head]
        have h1 := (hrange _ List.mem_cons_self).1
        have h2 : a ≤ proportion G false x1 false := by
          rcases List.mem_cons.mp hx' with hx' | hx'
          · rw [← (Prod.mk.inj hx').1]
          · exact hsort.1 _ (List.mem_map.mpr ⟨_, hx', rfl⟩)
        simp only [proportion_off, Bool.false_eq_true, if_false] at h2 ⊢
        rw [le_antisymm h2 h1]

/-! ### Edges of one work -/

def PopsFrom (t : EdgeType) : Prop := t = .startStart ∨ t = .lagFinishStart
def PopsTo (t : EdgeType) : Prop := t = .finishFinish ∨ t = .lagFinishStart

instance (t : EdgeType) : Decidable (PopsFrom t) := inferInstanceAs (Decidable (_ ∨ _))
instance (t : EdgeType) : Decidable (PopsTo t) := inferInstanceAs (Decidable (_ ∨ _))

/-- New edges for an edge to work `v`. -/
def produced (opt : Bool) (v : Nat) (fst : NewId) (d : Nat × Nat → Option NewId) (e : OEdge) : List NewEdge :=
  match e.type, opt with
  | .finishStart, _ => [⟨.last e.start, fst, ⌈e.lag⌉, .finishStart⟩]
  | .inseparable, _ => [⟨.last e.start, fst, 0, .inseparable⟩]
  | .startStart, false => [⟨.stage e.start 0, fst, 0, .finishStart⟩]
  | .finishFinish, false => [⟨.last e.start, .last v, 0, .finishStart⟩]
  | .lagFinishStart, false => [⟨.last e.start, fst, 0, .finishStart⟩]
  | .startStart, true => (d (e.start, v)).toList.map fun x => ⟨x, fst, 0, .finishStart⟩
  | .finishFinish, true => (d (v, e.start)).toList.map fun x => ⟨.last e.start, x, 0, .finishStart⟩
  | .lagFinishStart, true => (d (e.start, v)).toList.map (fun x => ⟨x, fst, 0, .finishStart⟩) ++
      (d (v, e.start)).toList.map fun x => ⟨.last e.start, x, 0, .finishStart⟩

/-- No lookup fails for the edge. -/
structure Ready (ids : List NewId) (opt : Bool) (v : Nat) (d : Nat × Nat → Option NewId) (e : OEdge) : Prop where
  finish : e.finish = v
  ne : e.start ≠ v
  last : NewId.last e.start ∈ ids
  off : opt = false → e.type = .startStart → .stage e.start 0 ∈ ids
  on_from : opt = true → PopsFrom e.type → ∃ x ∈ ids, d (e.start, v) = some x
  on_to : opt = true → PopsTo e.type → ∃ x ∈ ids, d (v, e.start) = some x

def Fill.all (r : Fill) : List NewEdge := r.extra ++ r.first ++ r.last

theorem all_first (r : Fill) (l : List NewEdge) (d : Nat × Nat → Option NewId) :
    (Fill.all ⟨r.extra, r.first ++ l, r.last, d⟩).Perm (r.all ++ l) := by
  rw [Fill.all, Fill.all, ← List.append_assoc, List.append_assoc, List.append_assoc (_ ++ _)]
  exact List.Perm.append_left _ List.perm_append_comm
theorem all_last (r : Fill) (l : List NewEdge) (d : Nat × Nat → Option NewId) :
    (Fill.all ⟨r.extra, r.first, r.last ++ l, d⟩).Perm (r.all ++ l) := by
  rw [Fill.all, Fill.all, ← List.append_assoc]
theorem all_extra (r : Fill) (l : List NewEdge) (d : Nat × Nat → Option NewId) :
    (Fill.all ⟨r.extra ++ l, r.first, r.last, d⟩).Perm (r.all ++ l) := by
  rw [Fill.all, Fill.all, List.append_assoc, List.append_assoc, List.append_assoc r.extra, List.append_assoc r.extra,
    List.append_assoc r.first]
  exact List.Perm.append_left _ (List.perm_append_comm.trans (by rw [List.append_assoc]))

theorem fillEdge_ok {ids : List NewId} {opt : Bool} {v : Nat} (fst : NewId) {r : Fill} {e : OEdge}
    (h : Ready ids opt v r.dict e) : ∃ r', fillEdge ids opt v fst r e = some r' ∧
      r'.all.Perm (r.all ++ produced opt v fst r.dict e) ∧
      ∀ k, ¬ (opt = true ∧ (k = (e.start, v) ∧ PopsFrom e.type ∨ k = (v, e.start) ∧ PopsTo e.type)) →
        r'.dict k = r.dict k := by
  obtain ⟨hf, hne, hl, hoff, hon1, hon2⟩ := h
  unfold fillEdge produced
  obtain ⟨u, w, lag, ty⟩ := e
  dsimp only at hf hne hl hoff hon1 hon2
  cases ty <;> cases opt <;> simp only [find, if_pos hl, Option.map_some]
  · exact ⟨_, rfl, all_first _ _ _, fun _ _ => rfl⟩
  · exact ⟨_, rfl, all_first _ _ _, fun _ _ => rfl⟩
  · exact ⟨_, rfl, all_first _ _ _, fun _ _ => rfl⟩
  · obtain ⟨x, hx, hd⟩ := hon1 rfl (Or.inr rfl)
    obtain ⟨y, hy, hd'⟩ := hon2 rfl (Or.inr rfl)
    have hk : (v, u) ≠ (u, v) := fun h => hne (Prod.mk.inj h).2
    simp only [pop, hf, hd, hd', Option.bind_some, if_pos hx, if_pos hy, Function.update_of_ne hk]
    refine ⟨_, rfl, ?_, ?_⟩
    · simp only [Option.toList_some, List.map_cons, List.map_nil]
      refine (all_extra ⟨r.extra, r.first ++ [_], r.last, r.dict⟩ [_] _).trans ?_
      rw [← List.append_assoc]
      exact (all_first r _ _).append_right _
    · intro k hk'
      push Not at hk'
      have := hk' trivial
      dsimp only
      rw [Function.update_of_ne (fun h => this.2 h (Or.inr rfl)), Function.update_of_ne (fun h => this.1 h (Or.inr rfl))]
  · simp only [if_pos (hoff rfl rfl), Option.map_some]
    exact ⟨_, rfl, all_first _ _ _, fun _ _ => rfl⟩
  · obtain ⟨x, hx, hd⟩ := hon1 rfl (Or.inl rfl)
    simp only [pop, hf, hd, Option.bind_some, if_pos hx, Option.map_some]
    refine ⟨_, rfl, all_first _ _ _, fun k hk => ?_⟩
    push Not at hk
    exact Function.update_of_ne (fun h => (hk trivial).1 h (Or.inl rfl)) _ _
  · exact ⟨_, rfl, all_last _ _ _, fun _ _ => rfl⟩
  · obtain ⟨y, hy, hd'⟩ := hon2 rfl (Or.inl rfl)
    simp only [pop, hf, hd', Option.bind_some, if_pos hy]
    refine ⟨_, rfl, all_extra _ _ _, fun k hk => ?_⟩
    push Not at hk
    exact Function.update_of_ne (fun h => (hk trivial).2 h (Or.inl rfl)) _ _
  · exact ⟨_, rfl, all_first _ _ _, fun _ _ => rfl⟩
  · exact ⟨_, rfl, all_first _ _ _, fun _ _ => rfl⟩

theorem produced_congr {opt : Bool} {v : Nat} {fst : NewId} {d d' : Nat × Nat → Option NewId} {e : OEdge}
    (h1 : opt = true → PopsFrom e.type → d' (e.start, v) = d (e.start, v))
    (h2 : opt = true → PopsTo e.type → d' (v, e.start) = d (v, e.start)) :
    produced opt v fst d' e = produced opt v fst d e := by
  unfold produced
  obtain ⟨u, w, lag, ty⟩ := e
  dsimp only at h1 h2
  cases ty <;> cases opt <;> try rfl
  · dsimp only; rw [h1 rfl (Or.inr rfl), h2 rfl (Or.inr rfl)]
  · dsimp only; rw [h1 rfl (Or.inl rfl)]
  · dsimp only; rw [h2 rfl (Or.inl rfl)]

theorem fillEdges_ok {ids : List NewId} {opt : Bool} {v : Nat} (fst : NewId) (es : List OEdge) :
    ∀ {r : Fill}, (∀ e ∈ es, Ready ids opt v r.dict e) →
      (opt = true → ((es.filter fun e => PopsFrom e.type).map (·.start)).Nodup) →
      (opt = true → ((es.filter fun e => PopsTo e.type).map (·.start)).Nodup) →
      ∃ r', fillEdges ids opt v fst es r = some r' ∧ r'.all.Perm (r.all ++ es.flatMap (produced opt v fst r.dict)) ∧
        ∀ k, (∀ e ∈ es, k ≠ (e.start, v) ∧ k ≠ (v, e.start)) → r'.dict k = r.dict k := by
  induction es with
  | nil => intro r _ _ _; exact ⟨r, rfl, by simp, fun _ _ => rfl⟩
  | cons e es ih =>
    intro r hr hn1 hn2
    obtain ⟨r₁, h1, hp1, hd1⟩ := fillEdge_ok fst (hr e List.mem_cons_self)
    have hne := (hr e List.mem_cons_self).ne
    have key1 : opt = true → ∀ e' ∈ es, PopsFrom e'.type → r₁.dict (e'.start, v) = r.dict (e'.start, v) := by
      intro ho e' he' ht'
      apply hd1
      rintro ⟨_, ⟨hk, ht⟩ | ⟨hk, ht⟩⟩
      · have := hn1 ho
        rw [List.filter_cons_of_pos (by simpa using ht), List.map_cons, List.nodup_cons] at this
        exact this.1 (List.mem_map.mpr ⟨e', List.mem_filter.mpr ⟨he', by simpa using ht'⟩, (Prod.mk.inj hk).1⟩)
      · exact (hr e' (List.mem_cons_of_mem _ he')).ne (Prod.mk.inj hk).1
    have key2 : opt = true → ∀ e' ∈ es, PopsTo e'.type → r₁.dict (v, e'.start) = r.dict (v, e'.start) := by
      intro ho e' he' ht'
      apply hd1
      rintro ⟨_, ⟨hk, ht⟩ | ⟨hk, ht⟩⟩
      · exact hne (Prod.mk.inj hk).1.symm
      · have := hn2 ho
        rw [List.filter_cons_of_pos (by simpa using ht), List.map_cons, List.nodup_cons] at this
        exact this.1 (List.mem_map.mpr ⟨e', List.mem_filter.mpr ⟨he', by simpa using ht'⟩, (Prod.mk.inj hk).2⟩)
    have hsub : ∀ {p : OEdge → Bool}, ((es.filter p).map (·.start)).Sublist ((List.filter p (e :: es)).map (·.start)) :=
      fun {p} => ((List.sublist_cons_self e es).filter p).map _
    obtain ⟨r', h2, hp2, hd2⟩ := ih (r := r₁)
      (fun e' he' =>
        have := hr e' (List.mem_cons_of_mem _ he')
        ⟨this.finish, this.ne, this.last, this.off,
          fun ho ht => by rw [key1 ho e' he' ht]; exact this.on_from ho ht,
          fun ho ht => by rw [key2 ho e' he' ht]; exact this.on_to ho ht⟩)
      (fun ho => (hn1 ho).sublist hsub) (fun ho => (hn2 ho).sublist hsub)
    refine ⟨r', by rw [fillEdges, h1]; exact h2, ?_, ?_⟩
    · have hc : es.flatMap (produced opt v fst r₁.dict) = es.flatMap (produced opt v fst r.dict) :=
        List.flatMap_congr fun e' he' => produced_congr (fun ho ht => key1 ho e' he' ht) (fun ho ht => key2 ho e' he' ht)
      rw [hc] at hp2
      rw [List.flatMap_cons, ← List.append_assoc]
      exact hp2.trans (hp1.append_right _)
    · intro k hk
      rw [hd2 k fun e' he' => hk e' (List.mem_cons_of_mem _ he'), hd1]
      rintro ⟨_, ⟨h, _⟩ | ⟨h, _⟩⟩
      · exact (hk e List.mem_cons_self).1 h
      · exact (hk e List.mem_cons_self).2 h

end Sampo.Restructure
