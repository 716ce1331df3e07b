import Verif.Spec.ZoneGenes
import Verif.Props.C28_Decoding

/-!
# C100: zones in the chromosomes of the genetic scheduler

The operators keep the zone part in shape (`mate_rows`, `mutate_entries`, `bred_proper`).  Decoding in the serial scheme works without
zones (`serial_without_zones`), and raises whenever the landscape has a zone (`serial_with_zones_raises`): the scheme asks for the
moment `schedule` gives back, and `schedule` gives back nothing.
-/

namespace Sampo.C100
open ZoneGenes

/-! ### Operators -/

private theorem takeRows_get {positions : List Nat} {a b : Part} (hlen : a.length = b.length) (i : Nat) :
    (takeRows positions a b)[i]? = if i ∈ positions then b[i]? else a[i]? := by
  unfold takeRows
  rw [List.getElem?_mapIdx]
  by_cases hi : i < a.length
  · have hb : i < b.length := hlen ▸ hi
    rw [List.getElem?_eq_getElem hi, Option.map_some]
    split
    · rw [List.getD_eq_getElem?_getD, List.getElem?_eq_getElem hb, Option.getD_some]
    · rfl
  · have hb : ¬ i < b.length := hlen ▸ hi
    rw [List.getElem?_eq_none (by omega), List.getElem?_eq_none (by omega), Option.map_none, ite_self]

private theorem takeRows_length {positions : List Nat} {a b : Part} : (takeRows positions a b).length = a.length := by
  simp [takeRows]

/-- Crossover of zones: both children have as many rows as the parents, and for every work one child has the row of one parent and the
other child that of the other: exchanged for the drawn works, kept for the others.  (Parts without entries are kept.) -/
theorem mate_rows (positions : List Nat) (a b : Part) (hlen : a.length = b.length) (hne : ∃ row ∈ a, row ≠ []) :
    (mate positions a b).1.length = a.length ∧ (mate positions a b).2.length = b.length ∧
      ∀ i : Nat, if i ∈ positions then (mate positions a b).1[i]? = b[i]? ∧ (mate positions a b).2[i]? = a[i]?
        else (mate positions a b).1[i]? = a[i]? ∧ (mate positions a b).2[i]? = b[i]? := by
  have h : nonEmpty a = true := by
    obtain ⟨row, h1, h2⟩ := hne
    exact List.any_eq_true.2 ⟨row, h1, by simpa using h2⟩
  unfold mate
  rw [if_pos h]
  refine ⟨takeRows_length, takeRows_length, fun i => ?_⟩
  dsimp only
  rw [takeRows_get hlen, takeRows_get hlen.symm]
  split <;> exact ⟨rfl, rfl⟩

private theorem fillRow_spec (ms : List Bool) (xs vals : List Int) :
    (fillRow ms xs vals).1.length = xs.length ∧ (∀ v ∈ (fillRow ms xs vals).2, v ∈ vals) ∧
      ∀ (j : Nat) (x : Int), (fillRow ms xs vals).1[j]? = some x → xs[j]? = some x ∨ ms[j]? = some true ∧ x ∈ vals := by
  induction ms generalizing xs vals with
  | nil => exact ⟨by simp [fillRow], by simp [fillRow], fun j x h => .inl (by simpa [fillRow] using h)⟩
  | cons m ms ih =>
    cases xs with
    | nil => exact ⟨by simp [fillRow], by simp [fillRow], fun j x h => by simp [fillRow] at h⟩
    | cons y ys =>
      cases m with
      | false =>
        obtain ⟨h1, h2, h3⟩ := ih ys vals
        refine ⟨by simp [fillRow, h1], by simpa [fillRow] using h2, fun j x h => ?_⟩
        cases j with
        | zero => left; simpa [fillRow] using h
        | succ j =>
          simp only [fillRow, Bool.false_eq_true, if_false, List.getElem?_cons_succ] at h ⊢
          exact h3 j x h
      | true =>
        cases vals with
        | nil =>
          obtain ⟨h1, h2, h3⟩ := ih ys []
          refine ⟨by simp [fillRow, h1], by simpa [fillRow] using h2, fun j x h => ?_⟩
          cases j with
          | zero => left; simpa [fillRow] using h
          | succ j =>
            simp only [fillRow, if_true, List.getElem?_cons_succ] at h ⊢
            exact h3 j x h
        | cons v vs =>
          obtain ⟨h1, h2, h3⟩ := ih ys vs
          refine ⟨by simp [fillRow, h1], fun w hw => List.mem_cons_of_mem _ (h2 w (by simpa [fillRow] using hw)), fun j x h => ?_⟩
          cases j with
          | zero => right; simp only [fillRow, if_true, List.getElem?_cons_zero, Option.some.injEq] at h ⊢; simp [h]
          | succ j =>
            simp only [fillRow, if_true, List.getElem?_cons_succ] at h ⊢
            rcases h3 j x h with h | ⟨h, h'⟩
            · exact .inl h
            · exact .inr ⟨h, List.mem_cons_of_mem _ h'⟩

private theorem fill_spec (mask : List (List Bool)) (p : Part) (vals : List Int) :
    (fill mask p vals).length = p.length ∧ ∀ (i : Nat) (row' : List Int), (fill mask p vals)[i]? = some row' → ∃ row : List Int, p[i]? = some row ∧
      row'.length = row.length ∧ ∀ (j : Nat) (x : Int), row'[j]? = some x →
        row[j]? = some x ∨ (∃ m : List Bool, mask[i]? = some m ∧ m[j]? = some true) ∧ x ∈ vals := by
  induction mask generalizing p vals with
  | nil => exact ⟨by simp [fill], fun i row h => ⟨row, by simpa [fill] using h, rfl, fun j x h => .inl h⟩⟩
  | cons m ms ih =>
    cases p with
    | nil => exact ⟨by simp [fill], fun i row h => by simp [fill] at h⟩
    | cons r rs =>
      obtain ⟨h1, h2⟩ := ih rs (fillRow m r vals).2
      obtain ⟨g1, g2, g3⟩ := fillRow_spec m r vals
      refine ⟨by simp [fill, h1], fun i row' h => ?_⟩
      cases i with
      | zero =>
        simp only [fill, List.getElem?_cons_zero, Option.some.injEq] at h ⊢
        subst h
        exact ⟨r, rfl, g1, fun j x hx => (g3 j x hx).imp_right fun h => ⟨⟨m, rfl, h.1⟩, h.2⟩⟩
      | succ i =>
        simp only [fill, List.getElem?_cons_succ] at h ⊢
        obtain ⟨row, k1, k2, k3⟩ := h2 i row' h
        exact ⟨row, k1, k2, fun j x hx => (k3 j x hx).imp_right fun h => ⟨h.1, g2 _ h.2⟩⟩

/-- Mutation of zones: the shape stays, and every entry is the old one or one of the drawn statuses, the latter only where the mask
says so. -/
theorem mutate_entries (mask : List (List Bool)) (vals : List Int) (p : Part) :
    (mutate mask vals p).length = p.length ∧ ∀ (i : Nat) (row' : List Int), (mutate mask vals p)[i]? = some row' → ∃ row : List Int, p[i]? = some row ∧
      row'.length = row.length ∧ ∀ (j : Nat) (x : Int), row'[j]? = some x →
        row[j]? = some x ∨ (∃ m : List Bool, mask[i]? = some m ∧ m[j]? = some true) ∧ x ∈ vals := by
  unfold mutate
  split
  · exact fill_spec mask p vals
  · exact ⟨rfl, fun i row h => ⟨row, h, rfl, fun j x hx => .inl hx⟩⟩

/-- The places where the mask is set, row by row. -/
def places (mask : List (List Bool)) : List Bool := mask.flatten.filter id

private theorem fillRow_all (ms : List Bool) (xs vals rest : List Int) (hlen : ms.length = xs.length)
    (hv : vals.length = (ms.filter id).length) :
    (fillRow ms xs (vals ++ rest)).2 = rest ∧ ((ms.zip (fillRow ms xs (vals ++ rest)).1).filter (·.1)).map (·.2) = vals := by
  induction ms generalizing xs vals with
  | nil =>
    have : vals = [] := List.length_eq_zero_iff.1 (by simpa using hv)
    subst this
    exact ⟨by simp [fillRow], by simp⟩
  | cons m ms ih =>
    cases xs with
    | nil => simp at hlen
    | cons x xs =>
      cases m with
      | false =>
        have := ih xs vals (by simpa using hlen) (by simpa using hv)
        simpa [fillRow] using this
      | true =>
        cases vals with
        | nil => simp at hv
        | cons v vs =>
          have := ih xs vs (by simpa using hlen) (by simpa using hv)
          simpa [fillRow] using this

private theorem fill_all (mask : List (List Bool)) (p : Part) (vals : List Int) (h : mask.map (·.length) = p.map (·.length))
    (hv : vals.length = (places mask).length) :
    ((mask.flatten.zip (fill mask p vals).flatten).filter (·.1)).map (·.2) = vals := by
  induction mask generalizing p vals with
  | nil =>
    have : vals = [] := List.length_eq_zero_iff.1 (by simpa [places] using hv)
    subst this; simp
  | cons m ms ih =>
    cases p with
    | nil => simp at h
    | cons r rs =>
      simp only [List.map_cons, List.cons.injEq] at h
      have hsplit : vals = vals.take (m.filter id).length ++ vals.drop (m.filter id).length := (List.take_append_drop _ _).symm
      have hv' : vals.length = (m.filter id).length + (places ms).length := by
        rw [hv]; simp [places, List.filter_append]
      have hl : (vals.take (m.filter id).length).length = (m.filter id).length := by rw [List.length_take]; omega
      obtain ⟨a1, a2⟩ := fillRow_all m r (vals.take (m.filter id).length) (vals.drop (m.filter id).length) h.1 hl
      have a3 := ih rs (vals.drop (m.filter id).length) h.2 (by rw [List.length_drop]; omega)
      have hlen : m.length = (fillRow m r vals).1.length := by rw [(fillRow_spec m r vals).1, h.1]
      rw [← hsplit] at a1 a2
      simp only [fill, List.flatten_cons]
      rw [List.zip_append hlen, List.filter_append, List.map_append, a2, a1, a3, ← hsplit]

/-- All drawn statuses are used, in their order: read row by row at the places of the mask, the mutated part gives exactly the drawn
statuses. -/
theorem mutate_uses_draws (mask : List (List Bool)) (vals : List Int) (p : Part) (hne : ∃ row ∈ p, row ≠ [])
    (hshape : mask.map (·.length) = p.map (·.length)) (hv : vals.length = (places mask).length) :
    ((mask.flatten.zip (mutate mask vals p).flatten).filter (·.1)).map (·.2) = vals := by
  have h : nonEmpty p = true := by
    obtain ⟨row, h1, h2⟩ := hne
    exact List.any_eq_true.2 ⟨row, h1, by simpa using h2⟩
  unfold mutate
  rw [if_pos h]
  exact fill_all mask p vals hshape hv

private theorem takeRows_proper {works zones statuses : Nat} {positions : List Nat} {a b : Part} (ha : Proper works zones statuses a)
    (hb : Proper works zones statuses b) : Proper works zones statuses (takeRows positions a b) := by
  refine ⟨takeRows_length.trans ha.1, fun row hr => ?_⟩
  obtain ⟨i, hi⟩ := List.mem_iff_getElem?.1 hr
  rw [takeRows_get (ha.1.trans hb.1.symm)] at hi
  split at hi
  · exact hb.2 row (List.mem_of_getElem? hi)
  · exact ha.2 row (List.mem_of_getElem? hi)

/-- In all generations the zone part of every chromosome is a matrix of available statuses for all works and zones. -/
theorem bred_proper {works zones statuses : Nat} (hs : 0 < statuses) {p : Part} (h : Bred works zones statuses p) :
    Proper works zones statuses p := by
  induction h with
  | first =>
    refine ⟨by simp [zeros], fun row hr => ?_⟩
    obtain rfl := List.eq_of_mem_replicate hr
    refine ⟨by simp, fun x hx => ?_⟩
    obtain rfl := List.eq_of_mem_replicate hx
    omega
  | mateFirst positions _ _ _ iha ihb => unfold mate; split; exacts [takeRows_proper iha ihb, iha]
  | mateSecond positions _ _ _ iha ihb => unfold mate; split; exacts [takeRows_proper ihb iha, ihb]
  | @mutate a mask vals _ hv ih =>
    obtain ⟨h1, h2⟩ := mutate_entries mask vals a
    refine ⟨h1.trans ih.1, fun row' hr => ?_⟩
    obtain ⟨i, hi⟩ := List.mem_iff_getElem?.1 hr
    obtain ⟨row, k1, k2, k3⟩ := h2 i row' hi
    obtain ⟨g1, g2⟩ := ih.2 row (List.mem_of_getElem? k1)
    refine ⟨k2.trans g1, fun x hx => ?_⟩
    obtain ⟨j, hj⟩ := List.mem_iff_getElem?.1 hx
    rcases k3 j x hj with h | ⟨-, h⟩
    · exact g2 x (List.mem_of_getElem? h)
    · have := hv x h
      omega

/-! ### Decoding in the serial scheme -/

variable {τ : Type}

private theorem serialFrom_congr {σ : Type} {D : Decode.Input σ} {E : Env σ} {post post' : Momentum.State σ → Nat → Option σ} {inf : Int}
    {fuelIn fuel : Nat} {order : List Nat} (h : ∀ st, ∀ i ∈ order, post st i = post' st i) (first : Bool) (st : Momentum.State σ) :
    Decode.serialFrom D E post inf fuelIn fuel first order st = Decode.serialFrom D E post' inf fuelIn fuel first order st := by
  induction order generalizing first st with
  | nil => rfl
  | cons i is ih =>
    simp only [Decode.serialFrom]
    split
    · rfl
    · rfl
    · rw [h _ i List.mem_cons_self]
      split
      · rfl
      · exact ih (fun st j hj => h st j (List.mem_cons_of_mem _ hj)) _ _

/-- On a landscape without zones the zone part has no columns, and decoding in the serial scheme is not influenced by it: the result is
the one of the scheme that leaves the zones as they are after every work (to which C28 applies). -/
theorem serial_without_zones (D : Decode.Input (ZoneSite.State τ)) (base : Env τ) (cfg : Zone.Config) (reqs : Nat → List Zone.Req)
    {works statuses : Nat} {part : Part} (hp : Proper works 0 statuses part) (mat : τ) (inf : Int) (fuelIn fuel : Nat) :
    serial D base cfg reqs part mat inf fuelIn fuel =
      Decode.serial D (ZoneSite.site base cfg reqs) (fun st _ => some st.env) (ZoneSite.fresh mat cfg) inf fuelIn fuel := by
  refine serialFrom_congr (fun st i _ => ?_) _ _
  have : part.getD i [] = [] := by
    rw [List.getD_eq_getElem?_getD]
    cases h : part[i]? with
    | none => rfl
    | some row => exact List.length_eq_zero_iff.1 (hp.2 row (List.mem_of_getElem? h)).1
  unfold post
  rw [this]
  rfl

/-- Not proved because false: a chromosome of a landscape with zones can be decoded in the serial scheme.  With at least one zone and
one work the scheme never returns a schedule, whatever the project, the chromosome and the statuses: after the first work it raises. -/
theorem serial_with_zones_raises (D : Decode.Input (ZoneSite.State τ)) (base : Env τ) (cfg : Zone.Config) (reqs : Nat → List Zone.Req)
    {works zones statuses : Nat} {part : Part} (hp : Proper works zones statuses part) (hz : 0 < zones) (ho : D.order ≠ [])
    (hi : ∀ i ∈ D.order, i < works) (mat : τ) (inf : Int) (fuelIn fuel : Nat) (st : Momentum.State (ZoneSite.State τ)) :
    serial D base cfg reqs part mat inf fuelIn fuel ≠ some (some st) := by
  unfold serial Decode.serial
  cases hord : D.order with
  | nil => exact absurd hord ho
  | cons i is =>
    simp only [Decode.serialFrom]
    split
    · simp
    · simp
    · rename_i st1 _
      have hlt : i < part.length := by rw [hp.1]; exact hi i (by rw [hord]; exact List.mem_cons_self)
      have hrow : (part.getD i []).length = zones := by
        rw [List.getD_eq_getElem?_getD, List.getElem?_eq_getElem hlt, Option.getD_some]
        exact (hp.2 _ (List.getElem_mem hlt)).1
      have hreq : (rowReqs (part.getD i [])).isEmpty = false := by
        rw [List.isEmpty_eq_false_iff, ← List.length_pos_iff]
        rw [rowReqs, List.length_map, List.length_zipIdx, hrow]
        exact hz
      have : post cfg (i :: is) part scheduleResult st1.env i = none := by
        simp only [post, changeTime, scheduleResult, hreq, Bool.false_eq_true, if_false, Option.bind_none]
      rw [this]
      simp

/-! ### Examples -/

/-- The chromosome of C28 for a site with zones. -/
private def demoInput : Decode.Input (ZoneSite.State Unit) where
  order := Demo.order
  chrom := ⟨fun i _ => if i = 0 ∨ i = 4 then 0 else 2, fun _ => 0, fun _ _ => 3⟩
  node := id
  reqs := fun v => if v = 0 ∨ v = 4 then [] else [⟨0, 1, 3⟩]
  spec := fun _ => {}
  independent := fun _ => false
  assignedTime := fun _ => none
  volume := fun _ => 1
  share := Assigned.exactShare
  pool := fun k c => if k = 0 ∧ c = 0 then some 3 else none
  kinds := 1
  parentTime := 5
  parents := fun v => (Demo.edges v).map (·.1)
  matOk := fun _ _ _ => true
  zoneOk := fun _ _ _ _ => true

private def noZones : Zone.Config := ⟨fun _ => none, [], fun _ _ => 0⟩
private def oneZone : Zone.Config := ⟨fun z => if z = 0 then some 1 else none, [], fun _ _ => 0⟩

/-- Without zones the chromosome is decoded. -/
example : ((serial demoInput Demo.env noZones (fun _ => []) (zeros 5 0) () 1000 20 20).map fun o => o.map fun st => st.sched.works) =
    some (some [4, 2, 1, 3, 0]) := by decide +kernel
/-- With one zone, which no work needs and the chromosome leaves as it is, decoding raises. -/
example : ((serial demoInput Demo.env oneZone (fun _ => []) (zeros 5 1) () 1000 20 20).map fun o => o.map fun st => st.sched.works) =
    some none := by decide +kernel
example : Proper 5 1 3 (zeros 5 1) ∧ Proper 5 0 3 (zeros 5 0) ∧ demoInput.order ≠ [] ∧ ∀ i ∈ demoInput.order, i < 5 :=
  ⟨bred_proper (by decide) .first, bred_proper (by decide) .first, by decide, by decide⟩
/-- Two works and two zones: rows and entries are exchanged and changed. -/
example : mate [1] [[0, 0], [1, 2]] [[2, 2], [0, 1]] = ([[0, 0], [0, 1]], [[2, 2], [1, 2]]) := by decide
example : mutate [[true, false], [false, true]] [2, 1] [[0, 0], [0, 0]] = [[2, 0], [0, 1]] := by decide
example : Bred 2 2 3 [[2, 0], [0, 0]] := by
  have h := Bred.mateFirst (works := 2) (zones := 2) (statuses := 3) [0]
    (.first) (.mutate [[true, false], [false, true]] [2, 1] .first (by decide)) (by decide)
  exact h

end Sampo.C100
