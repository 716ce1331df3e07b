import Verif.Spec.Pipeline
import Mathlib.Data.List.Basic
import Mathlib.Data.List.Sort
import Mathlib.Algebra.Order.Floor.Ring
import Mathlib.Tactic.Linarith
import Mathlib.Tactic.Positivity

/-! Lemmas about the pipeline. -/

namespace Sampo.Pipeline

/-! ## The check -/

theorem reqLoop_some {c : Contractor} : ∀ {reqs : List WorkerReq} {b : Bool}, reqLoop c reqs true = some b →
    (b = true ↔ Capable c reqs) := by
  intro reqs
  induction reqs with
  | nil => intro b h; simp [reqLoop] at h; subst h; simp [Capable]
  | cons r rs ih =>
    intro b h
    unfold reqLoop at h
    cases hl : c.workers.lookup r.kind with
    | none => rw [hl] at h; simp at h
    | some n =>
      rw [hl, Option.bind_some] at h
      split at h
      · rename_i hgt
        cases h
        refine ⟨fun h => by simp at h, fun h => ?_⟩
        obtain ⟨m, h1, h2⟩ := h r (List.mem_cons_self ..)
        rw [hl] at h1; cases h1; omega
      · rename_i hle
        rw [ih h]
        unfold Capable
        rw [List.forall_mem_cons]
        refine ⟨fun h => ⟨⟨n, hl, by omega⟩, h⟩, fun h => h.2⟩

theorem reqLoop_exists {c : Contractor} {reqs : List WorkerReq} (h : ∀ r ∈ reqs, ∃ n, c.workers.lookup r.kind = some n) (flag : Bool) :
    ∃ b, reqLoop c reqs flag = some b := by
  induction reqs with
  | nil => exact ⟨_, rfl⟩
  | cons r rs ih =>
    obtain ⟨n, hn⟩ := h r (List.mem_cons_self ..)
    obtain ⟨b, hb⟩ := ih (fun r hr => h r (List.mem_cons_of_mem _ hr))
    unfold reqLoop
    rw [hn, Option.bind_some]
    split
    · exact ⟨_, rfl⟩
    · exact ⟨b, hb⟩

theorem contractorLoop_some {reqs : List WorkerReq} : ∀ {cs : List Contractor} {num : Nat} {r : Bool × Nat},
    contractorLoop reqs cs true num = some r → r.1 = true ∧
      ((r.2 = num + 1 ∧ ∃ c ∈ cs, Capable c reqs) ∨ (r.2 = num ∧ ∀ c ∈ cs, ¬ Capable c reqs)) := by
  intro cs
  induction cs with
  | nil => intro num r h; simp [contractorLoop] at h; subst h; simp
  | cons c cs ih =>
    intro num r h
    unfold contractorLoop at h
    cases hq : reqLoop c reqs true with
    | none => rw [hq] at h; simp at h
    | some b =>
      rw [hq, Option.bind_some] at h
      have hcap := reqLoop_some hq
      cases b with
      | true =>
        rw [if_pos rfl] at h
        cases h
        exact ⟨rfl, Or.inl ⟨rfl, c, by simp, hcap.mp rfl⟩⟩
      | false =>
        rw [if_neg (by simp)] at h
        obtain ⟨h1, h2⟩ := ih h
        refine ⟨h1, ?_⟩
        rcases h2 with ⟨h2, d, hd, hdc⟩ | ⟨h2, h3⟩
        · exact Or.inl ⟨h2, d, by simp [hd], hdc⟩
        · refine Or.inr ⟨h2, ?_⟩
          intro d hd
          rcases List.mem_cons.mp hd with rfl | hd
          · intro hc; have := hcap.mpr hc; simp at this
          · exact h3 d hd

theorem contractorLoop_exists {reqs : List WorkerReq} : ∀ {cs : List Contractor} (flag : Bool) (num : Nat),
    (∀ c ∈ cs, ∀ r ∈ reqs, ∃ n, c.workers.lookup r.kind = some n) → ∃ r, contractorLoop reqs cs flag num = some r := by
  intro cs
  induction cs with
  | nil => intro flag num _; exact ⟨_, rfl⟩
  | cons c cs ih =>
    intro flag num h
    obtain ⟨b, hb⟩ := reqLoop_exists (h c (List.mem_cons_self ..)) flag
    unfold contractorLoop
    rw [hb, Option.bind_some]
    split
    · exact ⟨_, rfl⟩
    · exact ih true num fun d hd => h d (List.mem_cons_of_mem _ hd)

theorem nodeLoop_some {cs : List Contractor} : ∀ {nodes : List (List WorkerReq)} {b : Bool},
    nodeLoop cs nodes true 0 = some b → (b = true ↔ Feasible cs nodes) := by
  intro nodes
  induction nodes with
  | nil => intro b h; simp [nodeLoop] at h; subst h; simp [Feasible]
  | cons reqs nodes ih =>
    intro b h
    unfold nodeLoop at h
    cases hq : contractorLoop reqs cs true 0 with
    | none => rw [hq] at h; simp at h
    | some r =>
      rw [hq, Option.bind_some] at h
      obtain ⟨h1, h2⟩ := contractorLoop_some hq
      unfold Feasible
      rw [List.forall_mem_cons]
      split at h
      · rename_i h0
        cases h
        refine ⟨fun h => by simp at h, fun h => ?_⟩
        obtain ⟨c, hc, hcc⟩ := h.1
        rcases h2 with ⟨h2, _⟩ | ⟨_, h3⟩
        · omega
        · exact absurd hcc (h3 c hc)
      · rename_i h0
        rw [h1] at h
        rw [ih h]
        refine ⟨fun hf => ⟨?_, hf⟩, fun hf => hf.2⟩
        rcases h2 with ⟨_, h3⟩ | ⟨h2, _⟩
        · exact h3
        · exact absurd h2 h0

theorem nodeLoop_exists {cs : List Contractor} : ∀ {nodes : List (List WorkerReq)} (flag : Bool) (num : Nat),
    (∀ c ∈ cs, Complete c nodes) → ∃ b, nodeLoop cs nodes flag num = some b := by
  intro nodes
  induction nodes with
  | nil => intro flag num _; exact ⟨_, rfl⟩
  | cons reqs nodes ih =>
    intro flag num h
    obtain ⟨r, hr⟩ := contractorLoop_exists flag num fun c hc => h c hc reqs (List.mem_cons_self ..)
    unfold nodeLoop
    rw [hr, Option.bind_some]
    split
    · exact ⟨_, rfl⟩
    · exact ih r.1 0 fun c hc q hq => h c hc q (List.mem_cons_of_mem _ hq)

theorem mapM_some {α β : Type} {f : α → Option β} : ∀ {l : List α} {ys : List β}, l.mapM f = some ys →
    List.Forall₂ (fun x y => f x = some y) l ys := by
  intro l
  induction l with
  | nil => intro ys h; simp at h; subst h; exact .nil
  | cons x xs ih =>
    intro ys h
    rw [List.mapM_cons] at h
    simp only [bind, pure, Option.bind_eq_some_iff, Option.some.injEq] at h
    obtain ⟨y, hy, zs, hzs, rfl⟩ := h
    exact .cons hy (ih hzs)

/-! ## Generated contractors -/

theorem le_toInt {n : Int} {q : ℚ} (h : (n : ℚ) ≤ q) : n ≤ toInt q := by
  unfold toInt
  split
  · exact Int.le_floor.mpr h
  · exact Int.le_of_lt_add_one (by
      have := Int.le_ceil q
      have h1 : (n : ℚ) ≤ (⌈q⌉ : ℚ) := le_trans h this
      have h2 : n ≤ ⌈q⌉ := by exact_mod_cast h1
      omega)

theorem le_round {n : Int} {q : ℚ} (h : (n : ℚ) ≤ q) : n ≤ roundHalfEven q := by
  have : n ≤ ⌊q⌋ := Int.le_floor.mpr h
  unfold roundHalfEven
  split
  · exact this
  · split
    · omega
    · split <;> omega

theorem le_randInt {n : Int} {q : ℚ} (h : (n : ℚ) ≤ q) (p : Int) : n ≤ randInt q p := by
  unfold randInt
  exact le_min (le_max_of_le_left (le_round h)) (le_toInt (by linarith))

theorem valueByReq_eq {m : Method} {r : WorkerReq} (h0 : 0 ≤ r.minCount) (h1 : 0 ≤ r.maxCount) : valueByReq m r = boundOf m r := by
  unfold valueByReq boundOf toInt
  cases m with
  | min =>
    dsimp only
    rw [if_pos (by exact_mod_cast h0), Int.floor_intCast]
  | max =>
    dsimp only
    rw [if_pos (by exact_mod_cast h1), Int.floor_intCast]
  | avg =>
    dsimp only
    rw [if_pos (by
      have : (0 : ℚ) ≤ ((r.minCount + r.maxCount : Int) : ℚ) := by exact_mod_cast (by omega)
      linarith)]
    have := Rat.floor_intCast_div_natCast (r.minCount + r.maxCount) 2
    simpa using this

theorem pairLe_total (a b : Nat × Int) : (pairLe a b || pairLe b a) = true := by
  unfold pairLe
  rcases Nat.lt_trichotomy a.1 b.1 with h | h | h
  · simp [h]
  · rcases Int.le_total a.2 b.2 with h2 | h2
    · simp [h, h2]
    · simp [h, h2]
  · simp [h]

theorem pairLe_trans (a b c : Nat × Int) (h1 : pairLe a b = true) (h2 : pairLe b c = true) : pairLe a c = true := by
  unfold pairLe at *
  simp only [Bool.or_eq_true, Bool.and_eq_true, decide_eq_true_eq, beq_iff_eq] at *
  rcases h1 with h1 | ⟨h1, h1'⟩ <;> rcases h2 with h2 | ⟨h2, h2'⟩
  · left; omega
  · left; omega
  · left; omega
  · right; exact ⟨by omega, by omega⟩

theorem pairLe_iff {a b : Nat × Int} : pairLe a b = true ↔ a.1 < b.1 ∨ (a.1 = b.1 ∧ a.2 ≤ b.2) := by
  unfold pairLe
  simp

theorem lastOfGroups_keys : ∀ {l : List (Nat × Int)} {x : Nat × Int}, x ∈ lastOfGroups l → x ∈ l := by
  intro l
  induction l using lastOfGroups.induct with
  | case1 => intro x h; simp [lastOfGroups] at h
  | case2 x => intro y h; simpa [lastOfGroups] using h
  | case3 x y zs heq ih =>
    intro z h
    rw [lastOfGroups, if_pos heq] at h
    exact List.mem_cons_of_mem _ (ih h)
  | case4 x y zs hne ih =>
    intro z h
    rw [lastOfGroups, if_neg hne] at h
    rcases List.mem_cons.mp h with rfl | h
    · simp
    · exact List.mem_cons_of_mem _ (ih h)

/-- In a sorted list the last of each group is its maximum. -/
theorem lastOfGroups_lookup : ∀ {l : List (Nat × Int)}, l.Pairwise (fun a b => pairLe a b = true) → ∀ x ∈ l,
    ∃ v, (lastOfGroups l).lookup x.1 = some v ∧ x.2 ≤ v := by
  intro l
  induction l using lastOfGroups.induct with
  | case1 => intro _ x h; simp at h
  | case2 x =>
    intro _ y h
    simp at h; subst h
    exact ⟨y.2, by obtain ⟨a, b⟩ := y; simp [lastOfGroups], Int.le_refl _⟩
  | case3 x y zs heq ih =>
    intro hs z hz
    rw [lastOfGroups, if_pos heq]
    rw [List.pairwise_cons] at hs
    rcases List.mem_cons.mp hz with rfl | hz
    · obtain ⟨v, h1, h2⟩ := ih hs.2 y (by simp)
      have := pairLe_iff.mp (hs.1 y (by simp))
      exact ⟨v, by rw [heq]; exact h1, by omega⟩
    · exact ih hs.2 z hz
  | case4 x y zs hne ih =>
    intro hs z hz
    rw [lastOfGroups, if_neg hne]
    rw [List.pairwise_cons] at hs
    rcases List.mem_cons.mp hz with rfl | hz
    · exact ⟨z.2, by obtain ⟨a, b⟩ := z; simp, Int.le_refl _⟩
    · obtain ⟨v, h1, h2⟩ := ih hs.2 z hz
      have hlt : x.1 < z.1 := by
        have hy := pairLe_iff.mp (hs.1 y (by simp))
        rcases List.mem_cons.mp hz with rfl | hz'
        · omega
        · have := pairLe_iff.mp ((List.pairwise_cons.mp hs.2).1 z hz')
          omega
      refine ⟨v, ?_, h2⟩
      obtain ⟨a, b⟩ := x
      rw [List.lookup_cons]
      have : (z.1 == a) = false := by simp; dsimp only at hlt; omega
      rw [this]
      exact h1

theorem lastOfGroups_nodup : ∀ {l : List (Nat × Int)}, l.Pairwise (fun a b => pairLe a b = true) → ((lastOfGroups l).map (·.1)).Nodup := by
  intro l
  induction l using lastOfGroups.induct with
  | case1 => intro _; simp [lastOfGroups]
  | case2 x => intro _; simp [lastOfGroups]
  | case3 x y zs heq ih =>
    intro hs
    rw [lastOfGroups, if_pos heq]
    exact ih (List.pairwise_cons.mp hs).2
  | case4 x y zs hne ih =>
    intro hs
    rw [lastOfGroups, if_neg hne, List.map_cons, List.nodup_cons]
    rw [List.pairwise_cons] at hs
    refine ⟨?_, ih hs.2⟩
    intro hm
    obtain ⟨z, hz, hzx⟩ := List.mem_map.mp hm
    have hz := lastOfGroups_keys hz
    have hy := pairLe_iff.mp (hs.1 y (by simp))
    rcases List.mem_cons.mp hz with rfl | hz'
    · omega
    · have := pairLe_iff.mp ((List.pairwise_cons.mp hs.2).1 z hz')
      omega

theorem lookup_map_values {f : Nat → Int → Int} : ∀ {l : List (Nat × Int)} {k : Nat} {v : Int}, l.lookup k = some v →
    (l.map fun p => (p.1, f p.1 p.2)).lookup k = some (f k v) := by
  intro l
  induction l with
  | nil => intro k v h; simp at h
  | cons x xs ih =>
    intro k v h
    obtain ⟨a, b⟩ := x
    rw [List.map_cons, List.lookup_cons]
    rw [List.lookup_cons] at h
    cases hk : (k == a) with
    | true =>
      rw [hk] at h
      simp at h hk
      subst h; subst hk; rfl
    | false => rw [hk] at h; exact ih h

theorem lookup_mem {l : List (Nat × Int)} {k : Nat} {v : Int} (h : l.lookup k = some v) : (k, v) ∈ l := by
  induction l with
  | nil => simp at h
  | cons x xs ih =>
    obtain ⟨a, b⟩ := x
    rw [List.lookup_cons] at h
    cases hk : (k == a) with
    | true =>
      rw [hk] at h
      simp at h hk
      subst h; subst hk; simp
    | false => rw [hk] at h; exact List.mem_cons_of_mem _ (ih h)

theorem contractorByGraph_spec {id : Nat} {nodes : List (List WorkerReq)} {scaler : ℚ} {m : Method} {c : Contractor}
    (h : contractorByGraph id nodes scaler m = some c) :
    c.id = id ∧ (c.workers.map (·.1)).Nodup ∧ (∀ w ∈ c.workers, ∃ reqs ∈ nodes, ∃ r ∈ reqs, r.kind = w.1) ∧
    ∀ reqs ∈ nodes, ∀ r ∈ reqs, 0 ≤ valueByReq m r → ∃ n, c.workers.lookup r.kind = some n ∧ valueByReq m r ≤ n := by
  unfold contractorByGraph at h
  split at h
  · simp at h
  rename_i hsc
  rw [not_lt] at hsc
  simp only [Option.some.injEq] at h
  subst h
  have hsorted := List.pairwise_mergeSort (le := pairLe) pairLe_trans pairLe_total (nodes.flatten.map fun r => (r.kind, valueByReq m r))
  refine ⟨rfl, ?_, ?_, ?_⟩
  · have := lastOfGroups_nodup hsorted
    unfold makeContractor
    rw [List.map_map]
    exact this
  · intro w hw
    unfold makeContractor at hw
    obtain ⟨p, hp, rfl⟩ := List.mem_map.mp hw
    have hp := lastOfGroups_keys hp
    rw [List.mem_mergeSort] at hp
    obtain ⟨r, hr, rfl⟩ := List.mem_map.mp hp
    obtain ⟨reqs, h1, h2⟩ := List.mem_flatten.mp hr
    exact ⟨reqs, h1, r, h2, rfl⟩
  · intro reqs hreqs r hr h0
    obtain ⟨v, h1, h2⟩ := lastOfGroups_lookup hsorted (r.kind, valueByReq m r)
      (by rw [List.mem_mergeSort]; exact List.mem_map_of_mem (f := fun r => (r.kind, valueByReq m r)) (List.mem_flatten.mpr ⟨reqs, hreqs, hr⟩))
    refine ⟨randInt (v * scaler) v, lookup_map_values (f := fun _ p => randInt (p * scaler) p) h1, ?_⟩
    dsimp only at h2
    refine le_trans h2 (le_randInt ?_ v)
    have hv : (0 : ℚ) ≤ (v : ℚ) := by exact_mod_cast (le_trans h0 h2)
    nlinarith

end Sampo.Pipeline
