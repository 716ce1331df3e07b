import Verif.Prelude
import Verif.Model.Optimize
import Verif.Spec.Optimize

/-! # Lemmas about resource optimizers -/

namespace Sampo.Optimize

theorem dichotomyLoop_bounds (f : Int → Int) : ∀ n d u, d ≤ u → d ≤ dichotomyLoop f n d u ∧ dichotomyLoop f n d u ≤ u := by
  intro n
  induction n with
  | zero => intro d u h; simp only [dichotomyLoop]; omega
  | succ n ih =>
    intro d u h
    simp only [dichotomyLoop]
    split
    · split
      · omega
      · split
        · have := ih d ((d + u + 1) / 2) (by omega); omega
        · have := ih ((d + u - 1) / 2) u (by omega); omega
    · omega

/-- More fuel than the distance changes nothing: the loop has ended. -/
theorem dichotomyLoop_fuel (f : Int → Int) : ∀ n d u, (u - d).toNat ≤ n →
    dichotomyLoop f (n + 1) d u = dichotomyLoop f n d u := by
  intro n
  induction n with
  | zero => intro d u h; simp only [dichotomyLoop]; rw [if_neg (by omega)]
  | succ n ih =>
    intro d u h
    conv => lhs; unfold dichotomyLoop
    conv => rhs; unfold dichotomyLoop
    split
    · simp only
      rw [ih d ((d + u + 1) / 2) (by omega), ih ((d + u - 1) / 2) u (by omega)]
    · rfl

theorem dichotomyInt_fuel (f : Int → Int) (n : Nat) (d u : Int) (h : (u - d).toNat ≤ n) :
    dichotomyLoop f n d u = dichotomyInt d u f := by
  induction n, h using Nat.le_induction with
  | base => rfl
  | succ n hn ih => rw [dichotomyLoop_fuel f n d u hn, ih]

theorem dichotomyLoop_unimodal (f : Int → Int) (m : Int) : ∀ n d u, (u - d).toNat ≤ n → Unimodal f d u m →
    dichotomyLoop f n d u - 1 ≤ m ∧ m ≤ dichotomyLoop f n d u + 1 := by
  intro n
  induction n with
  | zero => intro d u h ⟨h1, h2, _, _⟩; simp only [dichotomyLoop]; omega
  | succ n ih =>
    intro d u h ⟨h1, h2, h3, h4⟩
    simp only [dichotomyLoop]
    split
    · split
      · omega
      · split
        · rename_i hlt
          have hm : m < (d + u + 1) / 2 := by
            by_contra hc
            have := h3 ((d + u - 1) / 2) ((d + u + 1) / 2) (by omega) (by omega) (by omega)
            omega
          exact ih d ((d + u + 1) / 2) (by omega)
            ⟨h1, by omega, h3, fun x y hx hxy hy => h4 x y hx hxy (by omega)⟩
        · rename_i hge
          have hm : (d + u - 1) / 2 < m := by
            by_contra hc
            have := h4 ((d + u - 1) / 2) ((d + u + 1) / 2) (by omega) (by omega) (by omega)
            omega
          exact ih ((d + u - 1) / 2) u (by omega)
            ⟨by omega, h2, fun x y hx hxy hy => h3 x y (by omega) hxy hy, h4⟩
    · omega

theorem _root_.Sampo.Within.length {d u c : List Int} (h : Within d u c) : d.length = c.length ∧ u.length = c.length := by
  induction d generalizing u c with
  | nil => cases u <;> cases c <;> simp_all [Within]
  | cons a d ih =>
    cases u with
    | nil => simp [Within] at h
    | cons b u =>
      cases c with
      | nil => simp [Within] at h
      | cons x c => have := ih h.2.2; simp; omega

theorem _root_.Sampo.Within.mono {d u d' u' c : List Int} (hd : Within d u d') (hu : Within d u u') (h : Within d' u' c) :
    Within d u c := by
  induction d generalizing u d' u' c with
  | nil => cases u <;> cases d' <;> cases u' <;> cases c <;> simp_all [Within]
  | cons a d ih =>
    cases u with
    | nil => simp [Within] at hd
    | cons b u =>
      cases d' with
      | nil => simp [Within] at hd
      | cons a' d' =>
        cases u' with
        | nil => simp [Within] at hu
        | cons b' u' =>
          cases c with
          | nil => simp [Within] at h
          | cons x c =>
            simp only [Within] at hd hu h ⊢
            exact ⟨by omega, by omega, ih hd.2.2 hu.2.2 h.2.2⟩

theorem _root_.Sampo.Ordered.upper {d u : List Int} (h : Ordered d u) : Within d u u := by
  unfold Ordered at h
  induction d generalizing u with
  | nil => cases u <;> simp_all [Within]
  | cons a d ih =>
    cases u with
    | nil => simp [Within] at h
    | cons b u => simp only [Within] at h ⊢; exact ⟨by omega, by omega, ih h.2.2⟩

/-- A one-dimensional method that stays between its borders. -/
def MethodWithin (method : Int → Int → (Int → Int) → Int) : Prop :=
  ∀ d u f, d ≤ u → d ≤ method d u f ∧ method d u f ≤ u

theorem dichotomyInt_within : MethodWithin dichotomyInt := fun d u f h => dichotomyLoop_bounds f _ d u h

theorem descentLoop_spec {method} (hm : MethodWithin method) (fitness) (truth : Bool) :
    ∀ (down up pre : List Int) (flags : List Bool), Ordered down up →
      ∃ r, descentLoop method fitness truth pre down up flags = pre ++ r ∧ Within down up r := by
  intro down
  induction down with
  | nil =>
    intro up pre flags h
    cases up with
    | nil => exact ⟨[], by simp [descentLoop], trivial⟩
    | cons => simp [Ordered, Within] at h
  | cons d down ih =>
    intro up pre flags h
    cases up with
    | nil => simp [Ordered, Within] at h
    | cons u up =>
      simp only [Ordered, Within] at h
      simp only [descentLoop]
      split
      · obtain ⟨r, h1, h2⟩ := ih up (pre ++ [d]) flags.tail h.2.2
        exact ⟨d :: r, by simp [h1], by simp only [Within]; exact ⟨by omega, by omega, h2⟩⟩
      · have hb := hm d u (fun x => fitness (pre ++ x :: down)) (by omega)
        obtain ⟨r, h1, h2⟩ := ih up (pre ++ [method d u fun x => fitness (pre ++ x :: down)]) flags.tail h.2.2
        exact ⟨(method d u fun x => fitness (pre ++ x :: down)) :: r, by simp [h1], by simp only [Within]; exact ⟨hb.1, hb.2, h2⟩⟩

theorem npTruth_some {arr : Option (List Bool)} {t : Bool} (h : npTruth arr = some t) :
    t = false ∨ (t = true ∧ arr = some [true]) := by
  unfold npTruth at h
  split at h <;> simp_all

theorem coordinateDescent_within {method} (hm : MethodWithin method) {fitness arr down up r}
    (ho : Ordered down up) (h : coordinateDescent method fitness arr down up = some r) : Within down up r := by
  unfold coordinateDescent at h
  split at h
  · rename_i hd
    subst hd
    cases up with
    | nil => simp at h; subst h; trivial
    | cons => simp [Ordered, Within] at ho
  · simp only [Option.bind_eq_some_iff, Option.some.injEq] at h
    obtain ⟨t, _, rfl⟩ := h
    obtain ⟨r, h1, h2⟩ := descentLoop_spec hm fitness t down up [] (arr.getD []) ho
    rw [h1]; simpa using h2

/-- What is written back are the new counts: `optimize_array` is true only when its single element is. -/
theorem writeBack_eq {arr : Option (List Bool)} {t : Bool} (h : npTruth arr = some t) {team new : List Int}
    (hlen : team.length = new.length) (harr : ∀ l, arr = some l → l.length = team.length) :
    writeBack t (arr.getD []) team new = new := by
  rcases npTruth_some h with rfl | ⟨rfl, rfl⟩
  · simp [writeBack]
  · have := harr _ rfl
    match team, new with
    | [a], [b] => simp [writeBack]
    | [], _ => simp at this
    | _ :: _ :: _, _ => simp at this
    | [_], [] => simp at hlen
    | [_], _ :: _ :: _ => simp at hlen

theorem descentOptimize_within {method} (hm : MethodWithin method) {fitness arr down up team r}
    (ho : Ordered down up) (hlen : team.length = down.length) (harr : ∀ l, arr = some l → l.length = team.length)
    (h : descentOptimize method fitness arr down up team = some r) : Within down up r := by
  unfold descentOptimize at h
  simp only [Option.bind_eq_some_iff, Option.some.injEq] at h
  obtain ⟨new, h1, t, h2, rfl⟩ := h
  have hw := coordinateDescent_within hm ho h1
  rw [writeBack_eq h2 (by have := hw.length; omega) harr]
  exact hw

theorem descentOptimize_none_arr {method} {fitness down up team} :
    (descentOptimize method fitness none down up team).isSome := by
  unfold descentOptimize coordinateDescent
  split <;> simp [npTruth]

theorem midpoint_within {down up : List Int} (h : Ordered down up) : Within down up (midpoint down up) := by
  unfold Ordered at h
  induction down generalizing up with
  | nil => cases up <;> simp_all [Within, midpoint]
  | cons a d ih =>
    cases up with
    | nil => simp [Within] at h
    | cons b u =>
      simp only [Within, midpoint, List.zipWith_cons_cons] at h ⊢
      exact ⟨by omega, by omega, ih h.2.2⟩

theorem _root_.Sampo.Within.ordered_left {d u c : List Int} (h : Within d u c) : Ordered d c := by
  unfold Ordered
  induction d generalizing u c with
  | nil => cases u <;> cases c <;> simp_all [Within]
  | cons a d ih =>
    cases u with
    | nil => simp [Within] at h
    | cons b u =>
      cases c with
      | nil => simp [Within] at h
      | cons x c => simp only [Within] at h ⊢; exact ⟨by omega, by omega, ih h.2.2⟩

theorem _root_.Sampo.Within.ordered_right {d u c : List Int} (h : Within d u c) : Ordered c u := by
  unfold Ordered
  induction d generalizing u c with
  | nil => cases u <;> cases c <;> simp_all [Within]
  | cons a d ih =>
    cases u with
    | nil => simp [Within] at h
    | cons b u =>
      cases c with
      | nil => simp [Within] at h
      | cons x c => simp only [Within] at h ⊢; exact ⟨by omega, by omega, ih h.2.2⟩

/-- Sum of the distances between borders. -/
def width (down up : List Int) : Nat := (List.zipWith (fun d u => (u - d).toNat) down up).sum

theorem width_mid_le {down up : List Int} (h : Ordered down up) : width down (midpoint down up) ≤ width down up := by
  unfold Ordered at h
  induction down generalizing up with
  | nil => simp [width, midpoint]
  | cons a d ih =>
    cases up with
    | nil => simp [Within] at h
    | cons b u =>
      simp only [Within] at h
      have := ih h.2.2
      simp only [width, midpoint, List.zipWith_cons_cons, List.sum_cons] at this ⊢
      omega

theorem width_mid_lt {down up : List Int} (h : Ordered down up) (hg : anyGreater up down = true) :
    width down (midpoint down up) < width down up := by
  unfold Ordered at h
  induction down generalizing up with
  | nil => simp [anyGreater] at hg
  | cons a d ih =>
    cases up with
    | nil => simp [Within] at h
    | cons b u =>
      simp only [Within] at h
      have hle := width_mid_le (down := d) (up := u) h.2.2
      simp only [anyGreater, List.zipWith_cons_cons, List.any_cons, Bool.or_eq_true, id_eq, decide_eq_true_eq] at hg
      simp only [width, midpoint, List.zipWith_cons_cons, List.sum_cons] at hle ⊢
      rcases hg with hg | hg
      · omega
      · have := ih h.2.2 (by simpa [anyGreater] using hg)
        simp only [width, midpoint] at this
        omega

theorem anyGreater_self (l : List Int) : anyGreater l l = false := by
  induction l with
  | nil => rfl
  | cons a l ih =>
    simp only [anyGreater, List.zipWith_cons_cons, List.any_cons, id_eq] at ih ⊢
    simp [ih]

/-- The diagonal search ends and stays between the borders. -/
theorem scanLoop_spec (fitness) : ∀ n down up l r, Ordered down up → width down up + 2 ≤ n →
    ∃ mid up', scanLoop fitness n down up up l r = some (mid, up') ∧ Within down up mid ∧ Within down up up' ∧
      Ordered mid up' := by
  intro n
  induction n with
  | zero => intro down up l r _ h; omega
  | succ n ih =>
    intro down up l r ho hn
    simp only [scanLoop]
    split
    · rename_i hg
      have hw := midpoint_within ho
      split
      · obtain ⟨k, rfl⟩ : ∃ k, n = k + 1 := ⟨n - 1, by omega⟩
        simp only [scanLoop, anyGreater_self]
        exact ⟨_, _, rfl, hw, (Ordered.upper ho), hw.ordered_right⟩
      · split
        · have hlt := width_mid_lt ho hg
          obtain ⟨m, u', h1, h2, h3, h4⟩ := ih down (midpoint down up) l (fitness (midpoint down up)) hw.ordered_left (by omega)
          exact ⟨m, u', h1, Within.mono ho hw h2, Within.mono ho hw h3, h4⟩
        · exact ⟨_, _, rfl, hw, (Ordered.upper ho), hw.ordered_right⟩
    · exact ⟨_, _, rfl, (Ordered.upper ho), (Ordered.upper ho), Within.ordered_right (Ordered.upper ho)⟩

theorem scan_spec (fitness) {down up : List Int} (l r) (ho : Ordered down up) :
    ∃ mid up', scanLoop fitness (scanFuel down up) down up up l r = some (mid, up') ∧ Within down up mid ∧
      Within down up up' ∧ Ordered mid up' :=
  scanLoop_spec fitness _ down up l r ho (by simp [scanFuel, width])

theorem averageCount_within {kn kd d u : Int} (hd : 0 ≤ d) (h : d ≤ u) (hk : 0 < kd) (hkk : kd ≤ kn) :
    d ≤ averageCount kn kd d u ∧ averageCount kn kd d u ≤ u := by
  have h0 : 0 ≤ (u - d) * kd := Int.mul_nonneg (by omega) (by omega)
  have h1 : 0 ≤ Int.tdiv ((u - d) * kd) kn := Int.tdiv_nonneg h0 (by omega)
  have h2 : Int.tdiv ((u - d) * kd) kn ≤ u - d := by
    rw [Int.tdiv_eq_ediv_of_nonneg h0]
    have : (u - d) * kd ≤ (u - d) * kn := Int.mul_le_mul_of_nonneg_left hkk (by omega)
    calc (u - d) * kd / kn ≤ (u - d) * kn / kn := Int.ediv_le_ediv (by omega) this
      _ = u - d := Int.mul_ediv_cancel _ (by omega)
  unfold averageCount
  omega

theorem average_within {kn kd : Int} (hk : 0 < kd) (hkk : kd ≤ kn) {down up : List Int} (hd : ∀ d ∈ down, 0 ≤ d)
    (ho : Ordered down up) : Within down up (List.zipWith (averageCount kn kd) down up) := by
  unfold Ordered at ho
  induction down generalizing up with
  | nil => cases up <;> simp_all [Within]
  | cons a d ih =>
    cases up with
    | nil => simp [Within] at ho
    | cons b u =>
      simp only [Within, List.zipWith_cons_cons] at ho ⊢
      have := averageCount_within (hd a (by simp)) (by omega : a ≤ b) hk hkk
      exact ⟨this.1, this.2, ih (fun x hx => hd x (by simp [hx])) ho.2.2⟩

end Sampo.Optimize
