import Verif.Lemmas.Toposort

namespace Sampo.RowOrder

variable {parents : Nat → List Nat}

/-- One pass moves some works from `notAdded` to the result, parents first. -/
theorem pass_spec : ∀ (vs notAdded res : List Nat), vs.Nodup → notAdded.Nodup → (∀ v ∈ vs, v ∈ notAdded) →
    ∃ added, (pass parents vs (notAdded, res)).2 = res ++ added ∧
      notAdded.Perm (added ++ (pass parents vs (notAdded, res)).1) ∧
      (added.Pairwise fun u v => v ∉ parents u) ∧
      (∀ u ∈ added, ∀ p ∈ parents u, p ∉ (pass parents vs (notAdded, res)).1) ∧
      (∀ u ∈ added, u ∉ parents u) ∧
      ((∃ v ∈ vs, ∀ p ∈ parents v, p ∉ notAdded) → added ≠ [])
  | [], notAdded, res, _, _, _ => ⟨[], by simp [pass]⟩
  | v :: vs, notAdded, res, hvs, hn, hsub => by
    rw [List.nodup_cons] at hvs
    unfold pass
    split
    · rename_i hp
      obtain ⟨added, h1, h2, h3, h4, h5, h6⟩ := pass_spec vs notAdded res hvs.2 hn
        (fun u hu => hsub u (List.mem_cons_of_mem _ hu))
      refine ⟨added, h1, h2, h3, h4, h5, ?_⟩
      rintro ⟨u, hu, hup⟩
      rw [List.mem_cons] at hu
      rcases hu with rfl | hu
      · exfalso
        rw [List.any_eq_true] at hp
        obtain ⟨p, hp1, hp2⟩ := hp
        exact hup p hp1 (by simpa using hp2)
      · exact h6 ⟨u, hu, hup⟩
    · rename_i hp
      have hfree : ∀ p ∈ parents v, p ∉ notAdded := by
        intro p hpp hpn
        apply hp
        rw [List.any_eq_true]
        exact ⟨p, hpp, by simpa using hpn⟩
      have hv : v ∈ notAdded := hsub v List.mem_cons_self
      obtain ⟨added, h1, h2, h3, h4, h5, -⟩ := pass_spec vs (notAdded.erase v) (res ++ [v]) hvs.2 (hn.erase v)
        (fun u hu => (List.mem_erase_of_ne (by rintro rfl; exact hvs.1 hu)).2 (hsub u (List.mem_cons_of_mem _ hu)))
      have hperm : notAdded.Perm (v :: added ++ (pass parents vs (notAdded.erase v, res ++ [v])).1) :=
        (List.perm_cons_erase hv).trans (h2.cons v)
      refine ⟨v :: added, by rw [h1]; simp, hperm, ?_, ?_, ?_, fun _ => List.cons_ne_nil _ _⟩
      · rw [List.pairwise_cons]
        refine ⟨fun u hu hpar => hfree u hpar ?_, h3⟩
        exact hperm.mem_iff.2 (List.mem_append_left _ (List.mem_cons_of_mem _ hu))
      · intro u hu p hpp
        rw [List.mem_cons] at hu
        rcases hu with rfl | hu
        · intro hpr
          exact hfree p hpp (hperm.mem_iff.2 (List.mem_append_right _ hpr))
        · exact h4 u hu p hpp
      · intro u hu
        rw [List.mem_cons] at hu
        rcases hu with rfl | hu
        · exact fun hpar => hfree _ hpar hv
        · exact h5 u hu

theorem classLoop_spec {iter : List Nat → List Nat} (hit : ∀ l, (iter l).Perm l)
    (hac : Acyclic fun u v => v ∈ parents u) : ∀ (fuel : Nat) (notAdded res : List Nat), notAdded.Nodup →
    notAdded.length ≤ fuel →
    ∃ added, classLoop parents iter fuel notAdded res = some (res ++ added) ∧ added.Perm notAdded ∧
      added.Pairwise fun u v => v ∉ parents u
  | 0, notAdded, res, hn, hl => by
    obtain rfl : notAdded = [] := List.length_eq_zero_iff.1 (by omega)
    exact ⟨[], by simp [classLoop]⟩
  | fuel + 1, notAdded, res, hn, hl => by
    unfold classLoop
    split
    · rename_i he
      obtain rfl : notAdded = [] := by simpa using he
      exact ⟨[], by simp⟩
    · rename_i he
      have hne : notAdded ≠ [] := by simpa using he
      have hfree : ∃ v ∈ iter notAdded, ∀ p ∈ parents v, p ∉ notAdded := by
        by_contra hc
        push Not at hc
        obtain ⟨x, -, hx⟩ := cycle_of_successors (r := fun u v => v ∈ parents u) hne (fun x hx => by
          obtain ⟨p, hp, hpn⟩ := hc x ((hit _).mem_iff.2 hx)
          exact ⟨p, hpn, hp⟩)
        exact hac x hx
      obtain ⟨added, h1, h2, h3, h4, -, h6⟩ := pass_spec (parents := parents) (iter notAdded) notAdded res
        ((hit _).nodup_iff.2 hn) hn (fun v hv => (hit _).mem_iff.1 hv)
      have hadd := h6 hfree
      have hlen := h2.length_eq
      rw [List.length_append] at hlen
      have hpos : 0 < added.length := List.length_pos_iff.2 hadd
      have hn' := h2.nodup_iff.1 hn
      rw [List.nodup_append] at hn'
      obtain ⟨added', h1', h2', h3'⟩ := classLoop_spec hit hac fuel
        (pass parents (iter notAdded) (notAdded, res)).1 (pass parents (iter notAdded) (notAdded, res)).2
        hn'.2.1 (by omega)
      refine ⟨added ++ added', ?_, ?_, ?_⟩
      · simp only
        rw [h1', h1, List.append_assoc]
      · exact ((List.Perm.refl added).append h2').trans h2.symm
      · rw [List.pairwise_append]
        exact ⟨h3, h3', fun u hu v hv hpar => h4 u hu v hpar (h2'.mem_iff.1 hv)⟩

theorem loop_spec {iter : List Nat → List Nat} (hit : ∀ l, (iter l).Perm l)
    (hac : Acyclic fun u v => v ∈ parents u) (time : Nat → Int) (fuel : Nat) :
    ∀ (ids : List Nat) (cur : Int) (cls res : List Nat), (cls ++ ids).Nodup → cls.length + ids.length ≤ fuel →
    (∀ c ∈ cls, time c = cur) → (cls ≠ [] → ∀ v ∈ ids, cur ≤ time v) → (ids.Pairwise fun u v => time u ≤ time v) →
    ∃ tail, loop parents iter fuel (ids.map fun v => (time v, v)) cur cls res = some (res ++ tail) ∧
      tail.Perm (cls ++ ids) ∧ tail.Pairwise fun u v => time u ≤ time v ∧ (time u = time v → v ∉ parents u)
  | [], cur, cls, res, hn, hf, hcls, _, _ => by
    rw [List.append_nil] at hn
    obtain ⟨added, h1, h2, h3⟩ := classLoop_spec (parents := parents) hit hac fuel cls res hn (by simpa using hf)
    refine ⟨added, h1, by rw [List.append_nil]; exact h2, ?_⟩
    refine List.Pairwise.imp_of_mem ?_ h3
    intro u v hu hv h
    rw [hcls u (h2.mem_iff.1 hu), hcls v (h2.mem_iff.1 hv)]
    exact ⟨le_refl _, fun _ => h⟩
  | v :: ids, cur, cls, res, hn, hf, hcls, hge, hs => by
    rw [List.pairwise_cons] at hs
    have hvc : v ∉ cls := by
      rw [List.nodup_append] at hn
      exact fun h => hn.2.2 v h v List.mem_cons_self rfl
    rw [List.map_cons]
    unfold loop
    simp only
    by_cases heq : time v = (if cls.isEmpty then time v else cur)
    · rw [if_pos heq]
      have hadd : add cls v = cls ++ [v] := by unfold add; rw [if_neg hvc]
      rw [hadd]
      obtain ⟨tail, h1, h2, h3⟩ := loop_spec hit hac time fuel ids (if cls.isEmpty then time v else cur) (cls ++ [v]) res
        (by simpa using hn) (by simp only [List.length_append, List.length_cons, List.length_nil] at *; omega)
        (by
          intro c hc
          rw [List.mem_append, List.mem_singleton] at hc
          rcases hc with hc | rfl
          · have : cls ≠ [] := List.ne_nil_of_mem hc
            rw [if_neg (by simpa using this)]
            exact hcls c hc
          · exact heq)
        (by
          intro _ u hu
          rw [← heq]
          exact hs.1 u hu) hs.2
      refine ⟨tail, h1, ?_, h3⟩
      simpa using h2
    · rw [if_neg heq]
      have hne : cls ≠ [] := by
        rintro rfl
        simp at heq
      rw [if_neg (by simpa using hne)] at heq
      have hn' := hn
      rw [List.nodup_append] at hn'
      obtain ⟨added, a1, a2, a3⟩ := classLoop_spec (parents := parents) hit hac fuel cls res hn'.1
        (by simp only [List.length_cons] at hf; omega)
      obtain ⟨tail, h1, h2, h3⟩ := loop_spec hit hac time fuel ids (time v) [v] (res ++ added)
        (by simpa using hn'.2.1) (by simp only [List.length_cons, List.length_nil] at *; omega)
        (by intro c hc; rw [List.mem_singleton.1 hc])
        (fun _ u hu => hs.1 u hu) hs.2
      refine ⟨added ++ tail, ?_, a2.append h2, ?_⟩
      · rw [a1, Option.bind_some, h1, List.append_assoc]
      · rw [List.pairwise_append]
        refine ⟨?_, h3, ?_⟩
        · refine List.Pairwise.imp_of_mem ?_ a3
          intro x y hx hy h
          rw [hcls x (a2.mem_iff.1 hx), hcls y (a2.mem_iff.1 hy)]
          exact ⟨le_refl _, fun _ => h⟩
        · intro x hx y hy
          have hxt : time x = cur := hcls x (a2.mem_iff.1 hx)
          have hlt : cur < time v := by
            have := hge hne v List.mem_cons_self
            omega
          have hyt : time v ≤ time y := by
            have := h2.mem_iff.1 hy
            rw [List.mem_append, List.mem_singleton] at this
            rcases this with rfl | this
            · exact le_refl _
            · exact hs.1 y this
          constructor
          · omega
          · intro h; omega

end Sampo.RowOrder
