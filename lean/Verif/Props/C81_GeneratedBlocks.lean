import Verif.Model.BlockGen
import Verif.Props.C37_Auction

/-!
# C81: generated block graphs
-/

namespace Sampo.C81

open Blocks

/-- The empty block before queue `q`; queues are counted from 0. -/
def gate (blocks : List Nat) (q : Nat) : Nat := ((blocks.take q).map (· + 1)).sum

/-- Block `i` of queue `q`. -/
def block (blocks : List Nat) (q i : Nat) : Nat := gate blocks q + 1 + i

private theorem gate_succ {blocks : List Nat} {q n : Nat} (h : blocks[q]? = some n) : gate blocks (q + 1) = gate blocks q + 1 + n := by
  unfold gate
  rw [List.take_add_one, h]
  simp
  omega

private theorem queueEdges_mem : ∀ (l : List Nat) (p : Nat) (e : Nat × Nat), e ∈ queueEdges l p ↔
    ∃ q n i, l[q]? = some n ∧ i < n ∧ (e = (p + gate l q, p + block l q i) ∨ e = (p + block l q i, p + gate l (q + 1)))
  | [], p, e => by simp [queueEdges]
  | n :: rest, p, e => by
    rw [queueEdges, List.mem_append, queueEdges_mem rest (p + 1 + n) e]
    have hg : ∀ q, gate (n :: rest) (q + 1) = n + 1 + gate rest q := by intro q; simp [gate]
    have h0 : gate (n :: rest) 0 = 0 := by simp [gate]
    have hr : gate rest 0 = 0 := by simp [gate]
    constructor
    · rintro (h | ⟨q, m, i, h1, h2, h3⟩)
      · obtain ⟨i, hi, h⟩ := List.mem_flatMap.mp h
        refine ⟨0, n, i, rfl, List.mem_range.mp hi, ?_⟩
        simp only [List.mem_cons, List.not_mem_nil, or_false] at h
        simp only [block, hg, h0, hr]
        rcases h with rfl | rfl
        · left; ext <;> dsimp only <;> omega
        · right; ext <;> dsimp only <;> omega
      · refine ⟨q + 1, m, i, h1, h2, ?_⟩
        simp only [block, hg] at h3 ⊢
        rcases h3 with rfl | rfl
        · left; ext <;> dsimp only <;> omega
        · right; ext <;> dsimp only <;> omega
    · rintro ⟨q, m, i, h1, h2, h3⟩
      cases q with
      | zero =>
        left
        obtain rfl : n = m := by simpa using h1
        refine List.mem_flatMap.mpr ⟨i, List.mem_range.mpr h2, ?_⟩
        simp only [List.mem_cons, List.not_mem_nil, or_false]
        simp only [block, hg, h0, hr] at h3
        rcases h3 with rfl | rfl
        · left; ext <;> dsimp only <;> omega
        · right; ext <;> dsimp only <;> omega
      | succ q =>
        right
        refine ⟨q, m, i, h1, h2, ?_⟩
        simp only [block, hg] at h3 ⊢
        rcases h3 with rfl | rfl
        · left; ext <;> dsimp only <;> omega
        · right; ext <;> dsimp only <;> omega

variable {blocks : List Nat} {p : Plan}

private theorem generated {num : Nat} (h : generateQueues num blocks = some p) : num ≤ blocks.length ∧
    p = ⟨List.range (gate blocks num + 1), queueEdges (blocks.take num) 0⟩ := by
  unfold generateQueues at h
  split at h
  · next hn => exact ⟨hn, (Option.some.inj h).symm⟩
  · cases h

private theorem gate_take {num q : Nat} (h : q ≤ num) : gate (blocks.take num) q = gate blocks q := by
  unfold gate
  rw [List.take_take, Nat.min_eq_left h]

/-- The links are exactly those from the empty block before a queue to the blocks of the queue, and from these to the empty block after the
queue. -/
theorem queue_links {num : Nat} (h : generateQueues num blocks = some p) (a b : Nat) : (a, b) ∈ p.edges ↔
    ∃ q n i, q < num ∧ blocks[q]? = some n ∧ i < n ∧
      ((a = gate blocks q ∧ b = block blocks q i) ∨ (a = block blocks q i ∧ b = gate blocks (q + 1))) := by
  obtain ⟨hn, rfl⟩ := generated h
  dsimp only
  rw [queueEdges_mem]
  constructor
  · rintro ⟨q, n, i, h1, h2, h3⟩
    have hq : q < num := by
      have := (List.getElem?_eq_some_iff.mp h1).1
      simp at this
      omega
    rw [List.getElem?_take, if_pos hq] at h1
    refine ⟨q, n, i, hq, h1, h2, ?_⟩
    simpa [block, gate_take hq.le, gate_take (show q + 1 ≤ num from hq)] using h3
  · rintro ⟨q, n, i, hq, h1, h2, h3⟩
    refine ⟨q, n, i, by rw [List.getElem?_take, if_pos hq]; exact h1, h2, ?_⟩
    simpa [block, gate_take hq.le, gate_take (show q + 1 ≤ num from hq)] using h3

private theorem gate_mono (blocks : List Nat) {q q' : Nat} (h : q ≤ q') : gate blocks q ≤ gate blocks q' := by
  unfold gate
  obtain ⟨d, rfl⟩ := Nat.exists_eq_add_of_le h
  rw [List.take_add, List.map_append, List.sum_append]
  omega

/-- Links lead from blocks of the graph to later ones, so there is no cycle. -/
theorem queues_valid {num : Nat} (h : generateQueues num blocks = some p) : p.Valid := by
  have hl := queue_links h
  have lt : ∀ a b, (a, b) ∈ p.edges → a < b ∧ b ≤ gate blocks num := by
    intro a b hab
    obtain ⟨q, n, i, h1, h2, h3, h4⟩ := (hl a b).mp hab
    have e := gate_succ h2
    have m := gate_mono blocks (show q + 1 ≤ num from h1)
    unfold block at h4
    omega
  obtain ⟨hn, rfl⟩ := generated h
  constructor
  · rintro ⟨a, b⟩ he
    have := lt a b he
    simp only [List.mem_range]
    omega
  · intro x hx
    have : ∀ a b, Relation.TransGen (fun a b => (a, b) ∈ queueEdges (blocks.take num) 0) a b → a < b := by
      intro a b h
      induction h with
      | single h => exact (lt _ _ h).1
      | tail _ h ih => exact ih.trans (lt _ _ h).1
    exact lt_irrefl x (this x x hx)

/-- If no queue is empty, every block of a queue depends, through others, on every block of every earlier queue. -/
theorem queue_after_queue {num : Nat} (h : generateQueues num blocks = some p) (hne : ∀ n ∈ blocks, n ≠ 0) {q q' n n' i i' : Nat}
    (hqq : q < q') (hq' : q' < num) (hn : blocks[q]? = some n) (hi : i < n) (hn' : blocks[q']? = some n') (hi' : i' < n') :
    Relation.TransGen (fun a b => (a, b) ∈ p.edges) (block blocks q i) (block blocks q' i') := by
  have hl := queue_links h
  have gates : ∀ d, q + 1 + d ≤ q' → Relation.TransGen (fun a b => (a, b) ∈ p.edges) (block blocks q i) (gate blocks (q + 1 + d)) := by
    intro d
    induction d with
    | zero => exact fun _ => .single ((hl _ _).mpr ⟨q, n, i, by omega, hn, hi, .inr ⟨rfl, rfl⟩⟩)
    | succ d ih =>
      intro hd
      have hlt : q + 1 + d < blocks.length := by
        have := (List.getElem?_eq_some_iff.mp hn').1
        omega
      have hm := List.getElem?_eq_getElem hlt
      have h0 := hne _ (List.getElem_mem hlt)
      exact ((ih (by omega)).tail ((hl _ _).mpr ⟨q + 1 + d, _, 0, by omega, hm, by omega, .inl ⟨rfl, rfl⟩⟩)).tail
        ((hl _ _).mpr ⟨q + 1 + d, _, 0, by omega, hm, by omega, .inr ⟨rfl, rfl⟩⟩)
  obtain ⟨d, rfl⟩ : ∃ d, q' = q + 1 + d := ⟨q' - q - 1, by omega⟩
  exact (gates d le_rfl).tail ((hl _ _).mpr ⟨_, n', i', hq', hn', hi', .inl ⟨rfl, rfl⟩⟩)

/-- Blocks of one queue do not depend on each other. -/
theorem queue_parallel {num : Nat} (h : generateQueues num blocks = some p) {q n i i' : Nat} (hq : q < num) (hn : blocks[q]? = some n)
    (hi : i < n) (hi' : i' < n) : ¬ Relation.TransGen (fun a b => (a, b) ∈ p.edges) (block blocks q i) (block blocks q i') := by
  have hl := queue_links h
  intro ht
  have lt : ∀ a b, (a, b) ∈ p.edges → a < b := by
    intro a b hab
    obtain ⟨q, n, i, h1, h2, h3, h4⟩ := (hl a b).mp hab
    have e := gate_succ h2
    unfold block at h4
    omega
  have le : ∀ a b, Relation.ReflTransGen (fun a b => (a, b) ∈ p.edges) a b → a ≤ b := by
    intro a b h
    induction h with
    | refl => exact le_rfl
    | tail _ h ih => exact ih.trans (lt _ _ h).le
  obtain ⟨c, h1, h2⟩ := Relation.TransGen.head'_iff.mp ht
  have h2 := le _ _ h2
  have eq := gate_succ hn
  obtain ⟨r, m, j, g1, g2, g3, g4⟩ := (hl _ _).mp h1
  have er := gate_succ g2
  have hcase : r < q ∨ r = q ∨ q < r := by omega
  unfold block at h2 g4
  rcases hcase with hr | rfl | hr
  · have := gate_mono blocks (show r + 1 ≤ q from hr)
    omega
  · omega
  · have := gate_mono blocks (show q + 1 ≤ r from hr)
    omega

/-- In every schedule of the blocks by a manager, whose blocks have finite times and no negative duration, every queue starts after all
earlier queues have finished. -/
theorem queues_in_turn {σ : Type} {num : Nat} (h : generateQueues num blocks = some p) (hne : ∀ n ∈ blocks, n ≠ 0)
    {auction : Nat → Int → σ → Option (Nat × Int × Int × σ)} {s s' : σ} {res : List SBlock}
    (hm : manageBlocks auction p.blocks.length p.graph s = some (res, s'))
    (hr : ∀ x ∈ res, -TIME_INF ≤ x.finish ∧ x.finish < TIME_INF ∧ x.start ≤ x.finish) {q q' n n' i i' : Nat}
    (hqq : q < q') (hq' : q' < num) (hn : blocks[q]? = some n) (hi : i < n) (hn' : blocks[q']? = some n') (hi' : i' < n')
    {x y : SBlock} (hx : x ∈ res) (hy : y ∈ res) (hxi : x.id = block blocks q i) (hyi : y.id = block blocks q' i') :
    x.finish < y.start := by
  obtain ⟨h1, h2, h3⟩ := C37.starts_after_dependencies (queues_valid h) hm
  have ht := queue_after_queue h hne hqq hq' hn hi hn' hi'
  rw [← hxi] at ht
  generalize hb : block blocks q' i' = b at ht hyi
  clear hb
  induction ht generalizing y with
  | single he => exact h3 x hx y hy (by rw [hyi]; exact he) (hr x hx).1 (hr x hx).2.1
  | @tail c d hc he ih =>
    obtain ⟨z, hz, hzi⟩ := List.mem_map.mp ((h2 c).mpr ((queues_valid h).known _ he).1)
    have a := ih hz hzi
    have b := h3 z hz y hy (by rw [hzi, hyi]; exact he) (hr z hz).1 (hr z hz).2.1
    have c := (hr z hz).2.2
    omega

/-- Too few numbers of blocks. -/
theorem queues_raise (num : Nat) : generateQueues num blocks = none ↔ blocks.length < num := by
  unfold generateQueues
  split <;> simp_all

/-- Not proved because false: "block graphs of the other types are generated".  A block with works makes the generator raise. -/
theorem blocks_raise (kind : Kind) (sizes : List Nat) (draw : Nat → Nat → Bool) :
    generateBlocks kind sizes draw = none ↔ ∃ s ∈ sizes, s ≠ 2 := by
  unfold generateBlocks
  split
  · next h => simpa using h
  · next h => simpa using h

/-! ### The graphs of the other types, as they are built before the generator raises -/

private theorem not_service {sizes : List Nat} {i : Nat} (h : service sizes i = false) : i < sizes.length := by
  by_contra hi
  unfold service at h
  rw [List.getD_eq_getElem?_getD, List.getElem?_eq_none (by omega)] at h
  simp at h

private theorem inner_lt {kind : Kind} {sizes : List Nat} {draw : Nat → Nat → Bool} {a b : Nat} (h : (a, b) ∈ innerEdges kind sizes draw) :
    a < b ∧ b < sizes.length ∧ service sizes a = false ∧ service sizes b = false := by
  cases kind with
  | parallel => simp [innerEdges] at h
  | sequential =>
    simp only [innerEdges, List.mem_flatMap] at h
    obtain ⟨i, -, h⟩ := h
    split at h
    · next hs =>
      obtain ⟨rfl, rfl⟩ := Prod.mk.inj (List.mem_singleton.mp h)
      have h1 : service sizes a = false := by rw [service, beq_eq_false_iff_ne]; omega
      have h2 : service sizes (a + 1) = false := by rw [service, beq_eq_false_iff_ne]; omega
      exact ⟨by omega, not_service h2, h1, h2⟩
    · simp at h
  | random =>
    simp only [innerEdges, List.mem_flatMap] at h
    obtain ⟨i, -, j, hj, h⟩ := h
    split at h
    · next hs =>
      split at h
      · simp at h
      · next hd =>
        obtain ⟨rfl, rfl⟩ := Prod.mk.inj (List.mem_singleton.mp h)
        have := List.mem_range'_1.mp hj
        exact ⟨by omega, not_service hs.2, hs⟩
    · simp at h

private theorem outer_iff {sizes : List Nat} {a b : Nat} : (a, b) ∈ outerEdges sizes ↔
    ∃ i, service sizes i = false ∧ ((a = sizes.length ∧ b = i) ∨ (a = i ∧ b = sizes.length + 1)) := by
  simp only [outerEdges, List.mem_flatMap, List.mem_range]
  constructor
  · rintro ⟨i, -, h⟩
    split at h
    · simp at h
    · next hs => exact ⟨i, by simpa using hs, by simpa using h⟩
  · rintro ⟨i, hs, h⟩
    exact ⟨i, by have := not_service hs; omega, by simpa [hs] using h⟩

/-- Links are between blocks of the graph and there is no cycle. -/
theorem built_valid (kind : Kind) (sizes : List Nat) (draw : Nat → Nat → Bool) : (builtPlan kind sizes draw).Valid := by
  have key : ∀ a b, (a, b) ∈ (builtPlan kind sizes draw).edges → a < sizes.length + 2 ∧ b < sizes.length + 2 ∧
      (if a = sizes.length then 0 else a + 1) < if b = sizes.length then 0 else b + 1 := by
    intro a b h
    rcases List.mem_append.mp h with h | h
    · obtain ⟨h1, h2, -⟩ := inner_lt h
      rw [if_neg (by omega), if_neg (by omega)]
      omega
    · obtain ⟨i, hs, ⟨rfl, rfl⟩ | ⟨rfl, rfl⟩⟩ := outer_iff.mp h
      · have := not_service hs
        rw [if_pos rfl, if_neg (by omega)]
        omega
      · have := not_service hs
        rw [if_neg (by omega), if_neg (by omega)]
        omega
  constructor
  · rintro ⟨a, b⟩ he
    have := key a b he
    exact ⟨List.mem_range.mpr this.1, List.mem_range.mpr this.2.1⟩
  · intro x hx
    have : ∀ a b, Relation.TransGen (fun a b => (a, b) ∈ (builtPlan kind sizes draw).edges) a b →
        (if a = sizes.length then 0 else a + 1) < if b = sizes.length then 0 else b + 1 := by
      intro a b h
      induction h with
      | single h => exact (key _ _ h).2.2
      | tail _ h ih => exact ih.trans (key _ _ h).2.2
    exact lt_irrefl _ (this x x hx)

/-- Exactly the blocks with works follow the global start and precede the global end. -/
theorem built_ends (kind : Kind) (sizes : List Nat) (draw : Nat → Nat → Bool) (i : Nat) :
    ((sizes.length, i) ∈ (builtPlan kind sizes draw).edges ↔ ∃ s, sizes[i]? = some s ∧ s ≠ 2) ∧
    ((i, sizes.length + 1) ∈ (builtPlan kind sizes draw).edges ↔ ∃ s, sizes[i]? = some s ∧ s ≠ 2) := by
  have hs : service sizes i = false ↔ ∃ s, sizes[i]? = some s ∧ s ≠ 2 := by
    unfold service
    rw [List.getD_eq_getElem?_getD]
    cases sizes[i]? <;> simp
  have h1 : ∀ a b, (a, b) ∈ (builtPlan kind sizes draw).edges ↔ (a, b) ∈ innerEdges kind sizes draw ∨ (a, b) ∈ outerEdges sizes :=
    fun _ _ => List.mem_append
  rw [h1, h1, ← hs, outer_iff, outer_iff]
  constructor <;> constructor
  · rintro (h | ⟨j, h, ⟨-, rfl⟩ | ⟨rfl, -⟩⟩)
    · have := inner_lt h; omega
    · exact h
    · exact absurd (not_service h) (lt_irrefl _)
  · exact fun h => .inr ⟨i, h, .inl ⟨rfl, rfl⟩⟩
  · rintro (h | ⟨j, h, ⟨-, rfl⟩ | ⟨rfl, -⟩⟩)
    · have := inner_lt h; omega
    · have := not_service h; omega
    · exact h
  · exact fun h => .inr ⟨i, h, .inr ⟨rfl, rfl⟩⟩

/-- Links between generated blocks: of a sequential graph exactly those of neighbours with works; of a parallel one none; of a random one
those that were drawn, from earlier to later blocks with works. -/
theorem built_links (kind : Kind) (sizes : List Nat) (draw : Nat → Nat → Bool) (hsz : ∀ s ∈ sizes, 2 ≤ s) (i j : Nat)
    (hi : i < sizes.length) (hj : j < sizes.length) : (i, j) ∈ (builtPlan kind sizes draw).edges ↔ sizes[i] ≠ 2 ∧ sizes[j] ≠ 2 ∧
      match kind with
      | .sequential => j = i + 1
      | .parallel => False
      | .random => i < j ∧ draw i j = true := by
  have h1 : (i, j) ∈ (builtPlan kind sizes draw).edges ↔ (i, j) ∈ innerEdges kind sizes draw := by
    constructor
    · intro h
      rcases List.mem_append.mp h with h | h
      · exact h
      · obtain ⟨k, -, h⟩ := outer_iff.mp h
        omega
    · exact fun h => List.mem_append.mpr (.inl h)
  have g : ∀ k (hk : k < sizes.length), sizes.getD k 2 = sizes[k] := by
    intro k hk
    rw [List.getD_eq_getElem?_getD, List.getElem?_eq_getElem hk]
    rfl
  have hi2 := hsz _ (List.getElem_mem hi)
  have hj2 := hsz _ (List.getElem_mem hj)
  rw [h1]
  cases kind with
  | parallel => simp [innerEdges]
  | sequential =>
    simp only [innerEdges, List.mem_flatMap, List.mem_range]
    constructor
    · rintro ⟨k, -, h⟩
      split at h
      · next hs =>
        obtain ⟨rfl, rfl⟩ := Prod.mk.inj (List.mem_singleton.mp h)
        rw [g _ hi, g _ hj] at hs
        exact ⟨by omega, by omega, rfl⟩
      · simp at h
    · rintro ⟨h2, h3, rfl⟩
      refine ⟨i, hi, ?_⟩
      rw [if_pos ⟨by rw [g _ hi]; omega, by rw [g _ hj]; omega⟩]
      exact List.mem_singleton.mpr rfl
  | random =>
    have hs : ∀ k (hk : k < sizes.length), service sizes k = false ↔ sizes[k] ≠ 2 := by
      intro k hk
      unfold service
      rw [g k hk]
      simp
    simp only [innerEdges, List.mem_flatMap, List.mem_range]
    constructor
    · rintro ⟨a, -, b, hb, h⟩
      split at h
      · next hs' =>
        split at h
        · simp at h
        · next hd =>
          obtain ⟨rfl, rfl⟩ := Prod.mk.inj (List.mem_singleton.mp h)
          have := List.mem_range'_1.mp hb
          rw [hs _ hi, hs _ hj] at hs'
          rw [not_or] at hd
          exact ⟨hs'.1, hs'.2, by omega, by simpa using hd.2⟩
      · simp at h
    · rintro ⟨h2, h3, h4, h5⟩
      refine ⟨i, by omega, j, List.mem_range'_1.mpr ⟨by omega, by omega⟩, ?_⟩
      rw [if_pos ⟨(hs _ hi).mpr h2, (hs _ hj).mpr h3⟩, if_neg (by rw [h5]; simp; omega)]
      exact List.mem_singleton.mpr rfl

/-! ### Cases -/

/-- Two queues of two blocks and of one block. -/
example : generateQueues 2 [2, 1] = some ⟨[0, 1, 2, 3, 4, 5], [(0, 1), (1, 3), (0, 2), (2, 3), (3, 4), (4, 5)]⟩ := by rfl

/-- The blocks of the first queue are 1 and 2, the block of the second one is 4. -/
example : block [2, 1] 0 0 = 1 ∧ block [2, 1] 0 1 = 2 ∧ block [2, 1] 1 0 = 4 ∧ ∀ n ∈ [2, 1], n ≠ 0 := by decide

/-- One agent, who needs 5 units for every block, does them one after the other. -/
example : (generateQueues 2 [2, 1]).bind (fun p => (manageBlocks (fun _ t (s : Int) => some (0, max t s, max t s + 5, max t s + 5))
    p.blocks.length p.graph 0).map (·.1)) =
    some [⟨0, 0, 1, 6⟩, ⟨2, 0, 7, 12⟩, ⟨1, 0, 12, 17⟩, ⟨3, 0, 18, 23⟩, ⟨4, 0, 24, 29⟩, ⟨5, 0, 30, 35⟩] := by decide +kernel

/-- A sequential graph of three blocks, the second of which is empty: the first and the third are not linked. -/
example : (builtPlan .sequential [7, 2, 9] fun _ _ => true).edges = [(3, 0), (0, 4), (3, 2), (2, 4)] := by decide

end Sampo.C81
