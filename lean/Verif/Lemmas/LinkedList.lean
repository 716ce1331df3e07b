import Verif.Spec.LinkedList
import Mathlib.Data.List.Basic
import Mathlib.Data.List.Nodup
import Mathlib.Data.List.Perm.Subperm
import Mathlib.Data.List.Perm.Basic
import Mathlib.Order.Basic

/-! Lemmas about linked lists. -/

namespace Sampo.Linked

/-- The nodes from an address on, with their values. -/
inductive Chain {α : Type} (heap : List (Cell α)) : Option Nat → List (Nat × α) → Prop
  | nil : Chain heap none []
  | cons {a : Nat} {c : Cell α} {xs : List (Nat × α)} : heap[a]? = some c → Chain heap c.next xs → Chain heap (some a) ((a, c.value) :: xs)

theorem Chain.congr {α : Type} {heap heap' : List (Cell α)} {start : Option Nat} {xs : List (Nat × α)}
    (h : Chain heap start xs) (he : ∀ x ∈ xs, heap'[x.1]? = heap[x.1]?) : Chain heap' start xs := by
  induction h with
  | nil => exact .nil
  | cons h1 h2 ih =>
    have := he _ (List.mem_cons_self ..)
    exact .cons (by rw [this]; exact h1) (ih (fun x hx => he x (List.mem_cons_of_mem _ hx)))

theorem Chain.lt {α : Type} {heap : List (Cell α)} {start : Option Nat} {xs : List (Nat × α)} (h : Chain heap start xs) :
    ∀ x ∈ xs, x.1 < heap.length := by
  induction h with
  | nil => simp
  | cons h1 h2 ih =>
    intro x hx
    rcases List.mem_cons.mp hx with rfl | hx
    · exact (List.getElem?_eq_some_iff.mp h1).1
    · exact ih x hx

theorem Chain.unique {α : Type} {heap : List (Cell α)} {start : Option Nat} {xs ys : List (Nat × α)} (h : Chain heap start xs)
    (h' : Chain heap start ys) : xs = ys := by
  induction h generalizing ys with
  | nil => cases h'; rfl
  | cons h1 h2 ih =>
    cases h' with
    | cons h3 h4 =>
      rw [h1] at h3; cases h3
      rw [ih h4]

/-- A chain visits no node twice: the rest after a node is determined by the node. -/
theorem Chain.nodup {α : Type} {heap : List (Cell α)} {start : Option Nat} {xs : List (Nat × α)} (h : Chain heap start xs) :
    (xs.map (·.1)).Nodup := by
  have suffix : ∀ {start : Option Nat} {xs : List (Nat × α)}, Chain heap start xs → ∀ a ∈ xs.map (·.1),
      ∃ ys, Chain heap (some a) ys ∧ ys.length ≤ xs.length := by
    intro start xs h
    induction h with
    | nil => simp
    | cons h1 h2 ih =>
      intro b hb
      rcases List.mem_cons.mp hb with rfl | hb
      · exact ⟨_, .cons h1 h2, Nat.le_refl _⟩
      · obtain ⟨ys, h3, h4⟩ := ih b hb
        exact ⟨ys, h3, by rw [List.length_cons]; omega⟩
  induction h with
  | nil => simp
  | cons h1 h2 ih =>
    rw [List.map_cons, List.nodup_cons]
    refine ⟨?_, ih⟩
    intro hmem
    obtain ⟨ys, h3, h4⟩ := suffix h2 _ hmem
    have := (Chain.cons h1 h2).unique h3
    rw [← this, List.length_cons] at h4
    omega

theorem Chain.length_le {α : Type} {heap : List (Cell α)} {start : Option Nat} {xs : List (Nat × α)} (h : Chain heap start xs) :
    xs.length ≤ heap.length := by
  have h1 := h.nodup
  have h2 : (xs.map (·.1)) ⊆ List.range heap.length := by
    intro a ha
    obtain ⟨x, hx, rfl⟩ := List.mem_map.mp ha
    exact List.mem_range.mpr (h.lt x hx)
  have := (List.Nodup.subperm h1 h2).length_le
  simpa using this

/-- Equality of nodes of a chain is identity. -/
theorem sameNode_chain {α : Type} [DecidableEq α] {heap : List (Cell α)} : ∀ {fuel : Nat} {a b : Nat} {xs ys : List (Nat × α)},
    Chain heap (some a) xs → Chain heap (some b) ys → xs.length ≠ ys.length → sameNode heap fuel a b = false := by
  intro fuel
  induction fuel with
  | zero => intros; rfl
  | succ fuel ih =>
    intro a b xs ys h1 h2 hne
    have hab : a ≠ b := by
      rintro rfl
      exact hne (by rw [h1.unique h2])
    unfold sameNode
    rw [if_neg hab]
    cases h1 with
    | cons p1 p2 =>
      cases h2 with
      | cons q1 q2 =>
        rename_i c xs d ys
        rw [p1, q1]
        dsimp only
        cases hc : c.next with
        | none =>
          cases hd : d.next with
          | none =>
            rw [hc] at p2; rw [hd] at q2
            cases p2; cases q2
            exact absurd rfl hne
          | some q => simp
        | some p =>
          cases hd : d.next with
          | none => simp
          | some q =>
            rw [hc] at p2; rw [hd] at q2
            have := ih p2 q2 (by simpa using hne)
            simp [this]

theorem sameNode_self {α : Type} [DecidableEq α] (heap : List (Cell α)) (fuel a : Nat) : sameNode heap (fuel + 1) a a = true := by
  unfold sameNode; simp

/-! ## Values -/

theorem walk_chain {α : Type} {heap : List (Cell α)} {start : Option Nat} {xs : List (Nat × α)} (h : Chain heap start xs) :
    ∀ {fuel : Nat}, xs.length < fuel → walk heap fuel start = some (xs.map (·.2)) := by
  induction h with
  | nil => intro fuel hf; cases fuel with
    | zero => omega
    | succ fuel => rfl
  | cons h1 h2 ih =>
    intro fuel hf
    cases fuel with
    | zero => omega
    | succ fuel =>
      unfold walk
      dsimp only
      rw [h1, Option.bind_some, ih (by rw [List.length_cons] at hf; omega)]
      rfl

/-- The nodes of a list. -/
def Holds {α : Type} (l : LList α) (xs : List (Nat × α)) : Prop := Chain l.heap l.root xs ∧ l.len = xs.length

/-- The tail is the last node. -/
def TailOk {α : Type} (l : LList α) (xs : List (Nat × α)) : Prop := ∀ x, xs.getLast? = some x → l.tail = some x.1

theorem values_holds {α : Type} {l : LList α} {xs : List (Nat × α)} (h : Holds l xs) : values l = some (xs.map (·.2)) := by
  unfold values
  exact walk_chain h.1 (by have := h.1.length_le; omega)

theorem iterLoop_chain {α : Type} {heap : List (Cell α)} {start : Option Nat} {xs : List (Nat × α)} (h : Chain heap start xs) :
    xs ≠ [] → ∀ {fuel : Nat}, xs.length < fuel → iterLoop heap fuel start = some (some (xs.map (·.2)).dropLast) := by
  induction h with
  | nil => intro hne; exact absurd rfl hne
  | cons h1 h2 ih =>
    intro hne0 fuel hf
    clear hne0
    rename_i a c xs
    cases fuel with
    | zero => omega
    | succ fuel =>
      unfold iterLoop
      rw [Option.bind_some, h1]
      dsimp only
      cases hn : c.next with
      | none =>
        rw [hn] at h2; cases h2
        simp
      | some b =>
        dsimp only
        rw [hn] at h2 ih
        have hne : xs ≠ [] := by
          rintro rfl
          cases h2
        rw [ih hne (by rw [List.length_cons] at hf; omega)]
        cases xs with
        | nil => exact absurd rfl hne
        | cons y ys => simp

/-! ## Appending -/

theorem append_holds {α : Type} {l : LList α} {xs : List (Nat × α)} (h : Holds l xs) (ht : TailOk l xs) (v : α) :
    ∃ l', append l v = some l' ∧ Holds l' (xs ++ [(l.heap.length, v)]) ∧ TailOk l' (xs ++ [(l.heap.length, v)]) := by
  obtain ⟨hc, hlen⟩ := h
  unfold append
  dsimp only
  cases hr : l.root with
  | none =>
    rw [hr] at hc
    cases hc
    refine ⟨_, rfl, ⟨?_, by simp [hlen]⟩, by intro x hx; simp at hx; subst hx; rfl⟩
    exact Chain.cons (c := ⟨v, none⟩) (by simp) .nil
  | some r =>
    rw [hr] at hc
    have hne : xs ≠ [] := by rintro rfl; cases hc
    obtain ⟨x, hx⟩ : ∃ x, xs.getLast? = some x := ⟨xs.getLast hne, List.getLast?_eq_some_getLast hne⟩
    obtain ⟨pre, rfl⟩ : ∃ pre, xs = pre ++ [x] := by
      obtain ⟨pre, hp⟩ := List.getLast?_eq_some_iff.mp hx
      exact ⟨pre, hp⟩
    have htail := ht x hx
    dsimp only
    rw [htail]
    have hnd := hc.nodup
    -- the last cell
    have hlast : ∀ {start : Option Nat} {pre : List (Nat × α)}, Chain l.heap start (pre ++ [x]) →
        l.heap[x.1]? = some ⟨x.2, none⟩ := by
      intro start pre
      induction pre generalizing start with
      | nil =>
        intro h
        rw [List.nil_append] at h
        cases h with
        | cons h1 h2 =>
          rename_i a c
          cases hn : c.next with
          | none => rw [h1]; cases c; simp_all
          | some b => rw [hn] at h2; cases h2
      | cons y ys ih =>
        intro h
        cases h with
        | cons h1 h2 => exact ih h2
    have hcell := hlast hc
    rw [Option.bind_some, hcell, Option.map_some]
    have hlt : x.1 < l.heap.length := (List.getElem?_eq_some_iff.mp hcell).1
    refine ⟨_, rfl, ⟨?_, ?_⟩, ?_⟩
    · dsimp only
      have key : ∀ {start : Option Nat} {pre : List (Nat × α)}, Chain l.heap start (pre ++ [x]) → x.1 ∉ pre.map (·.1) →
          Chain ((l.heap ++ [(⟨v, none⟩ : Cell α)]).set x.1 ⟨x.2, some l.heap.length⟩) start (pre ++ [x] ++ [(l.heap.length, v)]) := by
        intro start pre
        induction pre generalizing start with
        | nil =>
          intro h hm0
          clear hm0
          rw [List.nil_append] at h ⊢
          cases h with
          | cons h1 h2 =>
            rename_i a c
            refine Chain.cons (c := ⟨c.value, some l.heap.length⟩) ?_ ?_
            · rw [List.getElem?_set_self (by simp; exact Nat.lt_succ_of_lt hlt)]
            · refine Chain.cons (c := ⟨v, none⟩) ?_ .nil
              rw [List.getElem?_set_ne (by dsimp only at hlt; omega)]
              simp
        | cons y ys ih =>
          intro h hmem
          cases h with
          | cons h1 h2 =>
            rename_i a c
            rw [List.map_cons, List.mem_cons, not_or] at hmem
            refine Chain.cons (c := c) ?_ (ih h2 hmem.2)
            rw [List.getElem?_set_ne (by exact hmem.1), List.getElem?_append_left (List.getElem?_eq_some_iff.mp h1).1]
            exact h1
      refine key hc ?_
      rw [List.map_append, List.nodup_append] at hnd
      intro hm
      exact hnd.2.2 x.1 hm x.1 (by simp) rfl
    · dsimp only
      rw [hlen]; simp; omega
    · intro y hy
      simp at hy; subst hy; rfl

/-! ## Removing -/

/-- The iterator stands between the kept nodes and the rest. -/
structure Between {α : Type} (l : LList α) (it : Iter) (kept rest : List (Nat × α)) : Prop where
  chain : Chain l.heap l.root (kept ++ rest)
  node : it.node = (rest.head?.map (·.1))
  prev : ∀ x, kept.getLast? = some x → it.prev = some x.1
  len : l.len = (kept ++ rest).length

theorem chain_at {α : Type} {heap : List (Cell α)} {start : Option Nat} {kept rest : List (Nat × α)} {x : Nat × α}
    (h : Chain heap start (kept ++ x :: rest)) : ∃ n, heap[x.1]? = some ⟨x.2, n⟩ ∧ Chain heap (some x.1) (x :: rest) ∧
      Chain heap n rest ∧ n = rest.head?.map (·.1) := by
  induction kept generalizing start with
  | nil =>
    rw [List.nil_append] at h
    have h' := h
    cases h with
    | cons h1 h2 =>
      rename_i a c
      refine ⟨c.next, h1, h', h2, ?_⟩
      clear h' h1
      generalize c.next = m at h2
      cases h2 <;> simp
  | cons y ys ih =>
    cases h with
    | cons h1 h2 => exact ih h2

theorem between_next {α : Type} {l : LList α} {it : Iter} {kept rest : List (Nat × α)} {x : Nat × α}
    (h : Between l it kept (x :: rest)) : ∃ it', it.next l = some it' ∧ Between l it' (kept ++ [x]) rest := by
  obtain ⟨n, h1, h2, h3, h4⟩ := chain_at h.chain
  have hn := h.node
  simp at hn
  refine ⟨⟨n, some x.1⟩, ?_, ?_⟩
  · unfold Iter.next
    rw [hn, Option.bind_some, h1]; rfl
  · exact ⟨by simpa using h.chain, h4, by intro y hy; simp at hy; subst hy; rfl, by simpa using h.len⟩

theorem chain_drop {α : Type} {heap : List (Cell α)} {p x : Nat × α} {n : Option Nat} {rest : List (Nat × α)}
    (hx : Chain heap n rest) :
    ∀ {start : Option Nat} {pre : List (Nat × α)}, Chain heap start (pre ++ p :: x :: rest) →
    ((pre ++ p :: x :: rest).map (·.1)).Nodup →
    Chain (heap.set p.1 ⟨p.2, n⟩) start (pre ++ p :: rest) := by
  intro start pre
  induction pre generalizing start with
  | nil =>
    intro h hnd
    rw [List.nil_append] at h hnd ⊢
    rw [List.map_cons, List.nodup_cons, List.map_cons] at hnd
    cases h with
    | cons h1 h2 =>
      rename_i a c
      refine Chain.cons (c := ⟨c.value, n⟩) ?_ ?_
      · rw [List.getElem?_set_self (List.getElem?_eq_some_iff.mp h1).1]
      · refine hx.congr ?_
        intro y hy
        rw [List.getElem?_set_ne]
        intro heq
        exact hnd.1 (List.mem_cons_of_mem _ (by dsimp only at heq ⊢; rw [heq]; exact List.mem_map_of_mem hy))
  | cons y ys ih =>
    intro h hnd
    rw [List.cons_append] at h hnd ⊢
    rw [List.map_cons, List.nodup_cons] at hnd
    cases h with
    | cons h1 h2 =>
      rename_i a c
      refine Chain.cons (c := c) ?_ (ih h2 hnd.2)
      rw [List.getElem?_set_ne]
      · exact h1
      · intro heq
        exact hnd.1 (by rw [List.map_append, List.mem_append]; right; rw [List.map_cons]; dsimp only at heq ⊢; rw [← heq]; simp)

theorem between_remove {α : Type} [DecidableEq α] {l : LList α} {it : Iter} {kept rest : List (Nat × α)} {x : Nat × α}
    (h : Between l it kept (x :: rest)) :
    ∃ l' it', it.remove l = some (l', it') ∧ Between l' it' kept rest ∧ l'.tail = l.tail ∧ l'.heap.length = l.heap.length := by
  obtain ⟨n, h1, h2, h3, h4⟩ := chain_at h.chain
  have hn := h.node
  simp at hn
  have hchain := h.chain
  unfold Iter.remove
  rw [hn, Option.bind_some]
  cases hk : kept.getLast? with
  | none =>
    have : kept = [] := by simpa using hk
    subst this
    have hroot : l.root = some x.1 := by
      rw [List.nil_append] at hchain
      cases hr : l.root with
      | none => rw [hr] at hchain; cases hchain
      | some r => rw [hr] at hchain; cases hchain; rfl
    have hir : isRoot l x.1 = true := by
      unfold isRoot; rw [hroot]; exact sameNode_self _ _ _
    rw [if_pos hir, hroot, Option.bind_some, h1]
    refine ⟨_, _, rfl, ⟨h3, h4, by simp, ?_⟩, rfl, rfl⟩
    have := h.len
    simp at this ⊢
    omega
  | some p =>
    obtain ⟨pre, rfl⟩ := List.getLast?_eq_some_iff.mp hk
    have hir : isRoot l x.1 = false := by
      unfold isRoot
      cases hr : l.root with
      | none => rfl
      | some r =>
        rw [hr] at hchain
        exact sameNode_chain h2 hchain (by simp; omega)
    rw [if_neg (by rw [hir]; simp), h1, Option.bind_some, h.prev p hk, Option.bind_some]
    have hc' : Chain l.heap l.root (pre ++ p :: x :: rest) := by simpa using hchain
    obtain ⟨m, hp1, _⟩ := chain_at hc'
    rw [hp1]
    refine ⟨_, _, rfl, ⟨?_, h4, ?_, ?_⟩, rfl, by simp⟩
    · have := chain_drop h3 hc' hc'.nodup
      simpa using this
    · intro y hy
      have := h.prev y hy
      rw [h.prev p hk] at this
      exact this
    · have := h.len
      simp at this ⊢
      omega

theorem sieve_cons {α σ : Type} (cond : σ → α → σ × Bool) (s : σ) (v : α) (vs : List α) : sieve cond s (v :: vs) =
    (if (cond s v).2 then (sieve cond (cond s v).1 vs).1 else v :: (sieve cond (cond s v).1 vs).1,
      (sieve cond (cond s v).1 vs).2) := rfl

theorem removeLoop_spec {α σ : Type} [DecidableEq α] (cond : σ → α → σ × Bool) : ∀ {rest kept : List (Nat × α)} {fuel : Nat}
    {l : LList α} {it : Iter} {s : σ}, Between l it kept rest → rest.length < fuel →
    ∃ l' ys, removeLoop cond fuel l it s = some (some (l', (sieve cond s (rest.map (·.2))).2)) ∧ Holds l' (kept ++ ys) ∧
      ys.map (·.2) = (sieve cond s (rest.map (·.2))).1 ∧ l'.tail = l.tail ∧ l'.heap.length = l.heap.length ∧
      (∀ x, rest.getLast? = some x → x ∈ ys → ys.getLast? = some x) ∧ (∀ y ∈ ys, y ∈ rest) ∧
      ∀ y ∈ rest, (∀ s, (cond s y.2).2 = false) → y ∈ ys := by
  intro rest
  induction rest with
  | nil =>
    intro kept fuel l it s h hf
    cases fuel with
    | zero => simp at hf
    | succ fuel =>
      refine ⟨l, [], ?_, ⟨by simpa using h.chain, by simpa using h.len⟩, rfl, rfl, rfl, by simp, by simp, by simp⟩
      unfold removeLoop
      rw [h.node]
      rfl
  | cons x rest ih =>
    intro kept fuel l it s h hf
    cases fuel with
    | zero => simp at hf
    | succ fuel =>
      obtain ⟨n, h1, _⟩ := chain_at h.chain
      have hn := h.node
      simp at hn
      have hnd := h.chain.nodup
      rw [List.map_append, List.nodup_append] at hnd
      have hx : x.1 ∉ rest.map (·.1) := by
        have := hnd.2.1
        rw [List.map_cons, List.nodup_cons] at this
        exact this.1
      unfold removeLoop
      rw [hn]
      dsimp only
      rw [h1]
      dsimp only
      cases hcond : cond s x.2 with
      | mk s' b =>
        cases b with
        | true =>
          obtain ⟨l1, it1, hr, hb, ht, hl⟩ := between_remove h
          dsimp only
          rw [hr]
          dsimp only
          obtain ⟨l', ys, e1, e2, e3, e4, e5, e6, e7, e8⟩ := ih hb (fuel := fuel) (s := s') (by rw [List.length_cons] at hf; omega)
          refine ⟨l', ys, ?_, e2, ?_, e4.trans ht, e5.trans hl, ?_, fun y hy => List.mem_cons_of_mem _ (e7 y hy), ?_⟩
          · rw [e1, List.map_cons, sieve_cons, hcond]
          · rw [e3, List.map_cons, sieve_cons, hcond]; rfl
          · intro y hy hmem
            have hmem' := e7 y hmem
            cases rest with
            | nil => simp at hmem'
            | cons z zs =>
              rw [List.getLast?_cons_cons] at hy
              exact e6 y hy hmem
          · intro y hy hc
            rcases List.mem_cons.mp hy with rfl | hy
            · have := hc s; rw [hcond] at this; simp at this
            · exact e8 y hy hc
        | false =>
          obtain ⟨it1, hr, hb⟩ := between_next h
          dsimp only
          rw [hr]
          dsimp only
          obtain ⟨l', ys, e1, e2, e3, e4, e5, e6, e7, e8⟩ := ih hb (fuel := fuel) (s := s') (by rw [List.length_cons] at hf; omega)
          refine ⟨l', x :: ys, ?_, by simpa using e2, ?_, e4, e5, ?_, ?_, ?_⟩
          · rw [e1, List.map_cons, sieve_cons, hcond]
          · rw [List.map_cons, e3, List.map_cons, sieve_cons, hcond]; rfl
          · intro y hy hmem
            cases rest with
            | nil =>
              simp at hy; subst hy
              cases ys with
              | nil => rfl
              | cons z zs => have := e7 z (by simp); simp at this
            | cons z zs =>
              rw [List.getLast?_cons_cons] at hy
              have hyr : y ∈ z :: zs := List.mem_of_getLast? hy
              rcases List.mem_cons.mp hmem with rfl | hmem
              · exact absurd (List.mem_map_of_mem hyr) hx
              · rw [List.getLast?_cons, e6 y hy hmem]; rfl
          · intro y hy
            rcases List.mem_cons.mp hy with rfl | hy
            · simp
            · exact List.mem_cons_of_mem _ (e7 y hy)
          · intro y hy hc
            rcases List.mem_cons.mp hy with rfl | hy
            · simp
            · exact List.mem_cons_of_mem _ (e8 y hy hc)

theorem removeIf_spec {α σ : Type} [DecidableEq α] (cond : σ → α → σ × Bool) {l : LList α} {xs : List (Nat × α)} (h : Holds l xs)
    (s : σ) : ∃ l' ys, removeIf cond l s = some (some (l', (sieve cond s (xs.map (·.2))).2)) ∧ Holds l' ys ∧
      ys.map (·.2) = (sieve cond s (xs.map (·.2))).1 ∧ l'.tail = l.tail ∧
      (∀ x, xs.getLast? = some x → x ∈ ys → ys.getLast? = some x) ∧ (∀ y ∈ ys, y ∈ xs) ∧
      ∀ y ∈ xs, (∀ s, (cond s y.2).2 = false) → y ∈ ys := by
  have hb : Between l ⟨l.root, none⟩ [] xs := by
    refine ⟨by simpa using h.1, ?_, by simp, by simpa using h.2⟩
    have hc := h.1
    dsimp only
    cases hr : l.root with
    | none => rw [hr] at hc; cases hc; rfl
    | some r => rw [hr] at hc; cases hc; rfl
  obtain ⟨l', ys, e1, e2, e3, e4, _, e6, e7, e8⟩ := removeLoop_spec cond hb (fuel := l.heap.length + 1) (s := s) (by
    have := h.1.length_le; omega)
  exact ⟨l', ys, e1, by simpa using e2, e3, e4, e6, e7, e8⟩

end Sampo.Linked
