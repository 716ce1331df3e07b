import Verif.Model.Priority
import Verif.Lemmas.Toposort

namespace Sampo

/-- An acyclic relation on a finite closed set has a rank below the size of the set. -/
theorem exists_rank {next : Nat → List Nat} {l : List Nat} (hn : l.Nodup) (hcl : ∀ x ∈ l, ∀ y ∈ next x, y ∈ l)
    (hac : ∀ x ∈ l, ¬ Relation.TransGen (fun a b => b ∈ next a) x x) :
    ∃ rank : Nat → Nat, (∀ x ∈ l, rank x < l.length) ∧ ∀ x ∈ l, ∀ y ∈ next x, rank y < rank x := by
  let d : Deps := l.map fun x => (x, next x)
  have hk : d.keys = l := by
    show (l.map fun x => (x, next x)).map (·.1) = l
    rw [List.map_map]
    exact List.map_id _
  have hd : d.keys.Nodup := by rw [hk]; exact hn
  have hdep : ∀ x y, DependsOn d x y → x ∈ l ∧ y ∈ next x := by
    rintro x y ⟨-, deps, hm, hy⟩
    obtain ⟨z, hz, heq⟩ := List.mem_map.1 hm
    rw [Prod.mk.injEq] at heq
    obtain ⟨rfl, rfl⟩ := heq
    exact ⟨hz, hy⟩
  cases h : toposort d with
  | none =>
    exfalso
    obtain ⟨x, hx⟩ := toposort_none h
    obtain ⟨y, hxy, -⟩ := Relation.TransGen.head'_iff.1 hx
    exact hac x (hdep x y hxy).1 (Relation.TransGen.mono (fun a b hab => (hdep a b hab).2) x x hx)
  | some levels =>
    obtain ⟨h1, h2, h3, -⟩ := toposort_some hd h
    have hmem : ∀ x, x ∈ levels.flatten ↔ x ∈ l := by
      intro x
      rw [h2]
      constructor
      · rintro ⟨e, he, hx⟩
        obtain ⟨z, hz, rfl⟩ := List.mem_map.1 he
        rcases hx with rfl | hx
        · exact hz
        · exact hcl z hz x hx
      · intro hx
        exact ⟨(x, next x), List.mem_map.2 ⟨x, hx, rfl⟩, Or.inl rfl⟩
    have hperm : levels.flatten.Perm l := (List.perm_ext_iff_of_nodup h1 hn).2 hmem
    refine ⟨fun x => levels.flatten.idxOf x, ?_, ?_⟩
    · intro x hx
      rw [← hperm.length_eq]
      exact List.idxOf_lt_length_iff.2 ((hmem x).2 hx)
    · intro x hx y hy
      have hne : y ≠ x := by
        rintro rfl
        exact hac _ hx (Relation.TransGen.single hy)
      have hxy : DependsOn d x y := ⟨hne, next x, List.mem_map.2 ⟨x, hx, rfl⟩, hy⟩
      obtain ⟨level, hlm, hxl⟩ := List.mem_flatten.1 ((hmem x).2 hx)
      obtain ⟨before, after, he⟩ := List.append_of_mem hlm
      obtain ⟨b, hb, hyb⟩ := h3 before level after he x hxl y hxy
      have hyf : y ∈ before.flatten := List.mem_flatten.2 ⟨b, hb, hyb⟩
      have hxf : x ∉ before.flatten := by
        rw [he, List.flatten_append, List.flatten_cons, List.nodup_append] at h1
        exact fun hxb => h1.2.2 x hxb x (List.mem_append_left _ hxl) rfl
      simp only
      rw [he, List.flatten_append, List.idxOf_append_of_mem hyf, List.idxOf_append_of_notMem hxf]
      have := List.idxOf_lt_length_iff.2 hyf
      omega

namespace Priority

variable {parents : Nat → List Nat}

/-- `a` is `v` or a (transitive) predecessor of `v`. -/
abbrev Above (parents : Nat → List Nat) (v a : Nat) : Prop := Relation.ReflTransGen (fun x y => y ∈ parents x) v a

/-- `pr'` is `pr` lowered to `value` on a set. -/
def Lowered (s : Nat → Prop) (value : Int) (pr pr' : Nat → Int) : Prop :=
  ∀ x, (s x → pr' x = min (pr x) value) ∧ (¬ s x → pr' x = pr x)

theorem Lowered.trans {s t : Nat → Prop} {value : Int} {a b c : Nat → Int} (h : Lowered s value a b)
    (h' : Lowered t value b c) : Lowered (fun x => s x ∨ t x) value a c := by
  intro x
  obtain ⟨h1, h2⟩ := h x
  obtain ⟨h1', h2'⟩ := h' x
  constructor
  · rintro (hs | ht)
    · by_cases ht : t x
      · rw [h1' ht, h1 hs]; omega
      · rw [h2' ht, h1 hs]
    · by_cases hs : s x
      · rw [h1' ht, h1 hs]; omega
      · rw [h1' ht, h2 hs]
  · intro hn
    rw [h2' (fun h => hn (Or.inr h)), h2 (fun h => hn (Or.inl h))]

theorem Lowered.congr {s t : Nat → Prop} {value : Int} {a b : Nat → Int} (h : Lowered s value a b)
    (hst : ∀ x, s x ↔ t x) : Lowered t value a b := by
  intro x
  rw [← hst x]
  exact h x

theorem update_spec {nodes : List Nat} {rank : Nat → Nat} (hcl : ∀ x ∈ nodes, ∀ y ∈ parents x, y ∈ nodes)
    (hr : ∀ x ∈ nodes, ∀ y ∈ parents x, rank y < rank x) (value : Int) :
    ∀ (fuel : Nat) (v : Nat) (pr : Nat → Int), v ∈ nodes → rank v < fuel →
      ∃ pr', update parents value fuel v pr = some pr' ∧ Lowered (Above parents v) value pr pr'
  | 0, v, pr, _, h => by omega
  | fuel + 1, v, pr, hv, hf => by
    have gen : ∀ (ps : List Nat) (q : Nat → Int), (∀ p ∈ ps, p ∈ nodes ∧ rank p < fuel) →
        ∃ q', ps.foldlM (fun pr p => update parents value fuel p pr) q = some q' ∧
          Lowered (fun x => ∃ p ∈ ps, Above parents p x) value q q' := by
      intro ps
      induction ps with
      | nil => intro q _; exact ⟨q, rfl, fun x => ⟨by simp, fun _ => rfl⟩⟩
      | cons p ps ih =>
        intro q hps
        obtain ⟨q1, h1, l1⟩ := update_spec hcl hr value fuel p q (hps p List.mem_cons_self).1 (hps p List.mem_cons_self).2
        obtain ⟨q2, h2, l2⟩ := ih q1 (fun x hx => hps x (List.mem_cons_of_mem _ hx))
        refine ⟨q2, ?_, (l1.trans l2).congr ?_⟩
        · rw [List.foldlM_cons, h1]
          exact h2
        · intro x
          simp
    obtain ⟨q', h1, l1⟩ := gen (parents v) (fun x => if x = v then min (pr v) value else pr x)
      (fun p hp => ⟨hcl v hv p hp, by have := hr v hv p hp; omega⟩)
    refine ⟨q', ?_, ?_⟩
    · unfold update
      exact h1
    · have l0 : Lowered (fun x => x = v) value pr (fun x => if x = v then min (pr v) value else pr x) := by
        intro x
        constructor
        · rintro rfl; simp
        · intro hx; simp [hx]
      refine (l0.trans l1).congr ?_
      intro x
      constructor
      · rintro (rfl | ⟨p, hp, h⟩)
        · exact Relation.ReflTransGen.refl
        · exact Relation.ReflTransGen.head hp h
      · intro h
        rcases Relation.ReflTransGen.cases_head h with rfl | ⟨p, hp, h⟩
        · exact Or.inl rfl
        · exact Or.inr ⟨p, hp, h⟩

/-- What holds between the original priorities and the current ones: they only decrease, and each is the original priority
of the work or of one that depends on it. -/
def Sound (parents : Nat → List Nat) (pr0 pr : Nat → Int) : Prop :=
  ∀ x, pr x ≤ pr0 x ∧ ∃ d, Above parents d x ∧ pr x = pr0 d

theorem Sound.lower {pr0 pr pr' : Nat → Int} (h : Sound parents pr0 pr) {p v : Nat} (hp : p ∈ parents v)
    (hl : Lowered (Above parents p) (pr v) pr pr') : Sound parents pr0 pr' := by
  intro x
  obtain ⟨h1, d, hd, he⟩ := h x
  by_cases hx : Above parents p x
  · rw [(hl x).1 hx]
    refine ⟨by omega, ?_⟩
    by_cases hlt : pr x ≤ pr v
    · exact ⟨d, hd, by omega⟩
    · obtain ⟨-, d', hd', he'⟩ := h v
      exact ⟨d', (hd'.tail hp).trans hx, by omega⟩
  · rw [(hl x).2 hx]
    exact ⟨h1, d, hd, he⟩

/-- Works whose priority is not above the priority of their successor stay so. -/
theorem Lowered.keeps {pr pr' : Nat → Int} {p q n : Nat} {value : Int} (hl : Lowered (Above parents p) value pr pr')
    (hq : q ∈ parents n) (h : pr q ≤ pr n) : pr' q ≤ pr' n := by
  by_cases hn : Above parents p n
  · rw [(hl n).1 hn, (hl q).1 (hn.tail hq)]
    omega
  · rw [(hl n).2 hn]
    by_cases hq' : Above parents p q
    · rw [(hl q).1 hq']; omega
    · rw [(hl q).2 hq']; exact h

theorem correctNode_spec {nodes : List Nat} {rank : Nat → Nat} (hcl : ∀ x ∈ nodes, ∀ y ∈ parents x, y ∈ nodes)
    (hr : ∀ x ∈ nodes, ∀ y ∈ parents x, rank y < rank x) {fuel : Nat} (hfuel : ∀ x ∈ nodes, rank x < fuel)
    {v : Nat} (hv : v ∈ nodes) (pr0 : Nat → Int) :
    ∀ (ps : List Nat) (pr : Nat → Int), (∀ p ∈ ps, p ∈ parents v) → Sound parents pr0 pr →
      ∃ pr', correctNode parents fuel v ps pr = some pr' ∧ Sound parents pr0 pr' ∧
        (∀ n q, q ∈ parents n → pr q ≤ pr n → pr' q ≤ pr' n) ∧ ∀ p ∈ ps, pr' p ≤ pr' v
  | [], pr, _, hs => ⟨pr, rfl, hs, fun _ _ _ h => h, by simp⟩
  | p :: ps, pr, hps, hs => by
    have hpv : p ∈ parents v := hps p List.mem_cons_self
    have hpn : p ∈ nodes := hcl v hv p hpv
    unfold correctNode
    split
    · rename_i hlt
      obtain ⟨q, h1, l1⟩ := update_spec hcl hr (pr v) fuel p pr hpn (hfuel p hpn)
      have hs' := hs.lower hpv l1
      obtain ⟨pr', h2, s2, k2, f2⟩ := correctNode_spec hcl hr hfuel hv pr0 ps q
        (fun x hx => hps x (List.mem_cons_of_mem _ hx)) hs'
      refine ⟨pr', ?_, s2, fun n x hx h => k2 n x hx (l1.keeps hx h), ?_⟩
      · rw [h1]; exact h2
      · intro x hx
        rw [List.mem_cons] at hx
        rcases hx with rfl | hx
        · apply k2 v x hpv
          have hxx := (l1 x).1 Relation.ReflTransGen.refl
          have hvv : ¬ Above parents x v := by
            have hrank : ∀ a, Above parents x a → a ∈ nodes ∧ rank a ≤ rank x := by
              intro a ha
              induction ha with
              | refl => exact ⟨hpn, le_refl _⟩
              | tail _ hstep ih => exact ⟨hcl _ ih.1 _ hstep, by have := hr _ ih.1 _ hstep; omega⟩
            intro hc
            have := (hrank v hc).2
            have := hr v hv x hpv
            omega
          rw [hxx, (l1 v).2 hvv]
          omega
        · exact f2 x hx
    · rename_i hlt
      obtain ⟨pr', h2, s2, k2, f2⟩ := correctNode_spec hcl hr hfuel hv pr0 ps pr
        (fun x hx => hps x (List.mem_cons_of_mem _ hx)) hs
      refine ⟨pr', h2, s2, k2, ?_⟩
      intro x hx
      rw [List.mem_cons] at hx
      rcases hx with rfl | hx
      · exact k2 v x hpv (by omega)
      · exact f2 x hx

theorem correct_spec {nodes : List Nat} {rank : Nat → Nat} (hcl : ∀ x ∈ nodes, ∀ y ∈ parents x, y ∈ nodes)
    (hr : ∀ x ∈ nodes, ∀ y ∈ parents x, rank y < rank x) {fuel : Nat} (hfuel : ∀ x ∈ nodes, rank x < fuel)
    (pr0 : Nat → Int) :
    ∀ (vs : List Nat) (pr : Nat → Int), (∀ v ∈ vs, v ∈ nodes) → Sound parents pr0 pr →
      ∃ pr', correct parents fuel vs pr = some pr' ∧ Sound parents pr0 pr' ∧
        (∀ n q, q ∈ parents n → pr q ≤ pr n → pr' q ≤ pr' n) ∧ ∀ v ∈ vs, ∀ p ∈ parents v, pr' p ≤ pr' v
  | [], pr, _, hs => ⟨pr, rfl, hs, fun _ _ _ h => h, by simp⟩
  | v :: vs, pr, hvs, hs => by
    obtain ⟨q, h1, s1, k1, f1⟩ := correctNode_spec hcl hr hfuel (hvs v List.mem_cons_self) pr0 (parents v) pr
      (fun _ h => h) hs
    obtain ⟨pr', h2, s2, k2, f2⟩ := correct_spec hcl hr hfuel pr0 vs q (fun x hx => hvs x (List.mem_cons_of_mem _ hx)) s1
    refine ⟨pr', ?_, s2, fun n x hx h => k2 n x hx (k1 n x hx h), ?_⟩
    · unfold correct
      rw [h1]
      exact h2
    · intro x hx p hp
      rw [List.mem_cons] at hx
      rcases hx with rfl | hx
      · exact k2 x p hp (f1 p hp)
      · exact f2 x hx p hp

end Priority

end Sampo
