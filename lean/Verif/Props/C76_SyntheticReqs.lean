import Verif.Model.SyntheticReqs
import Verif.Lemmas.Interval
import Mathlib.Tactic.Linarith
import Mathlib.Tactic.NormNum

/-!
# C76: synthetic works can be done by the synthetic contractor
-/

namespace Sampo.C76

open SyntheticReqs Intervals
open Synthetic (Kind)

/-- The lengths in km that the generator chooses for works of a kind (gen_counts.py:3-5, cluster.py). -/
def Length : Kind → ℚ → Prop
  | .minRoad, d | .tempRoad, d | .finalRoad, d | .highPowerLine, d => 5 ≤ d ∧ d ≤ 15
  | .powerLine, d | .pipe, d | .looping, d => 1 / 2 ≤ d ∧ d ≤ 3
  | .pipeNet, d => 1 / 20 ≤ d ∧ d ≤ 3 / 10
  | .powerNet, d => 1 / 20 ≤ d
  | _, _ => True

/-- Of a profession, one set of the default proportions has this many workers. -/
def oneSet (name : String) : Int :=
  if name = "driver" then 6 else if name = "fitter" then 6 else if name = "handyman" then 8 else if name = "electrician" then 2
  else if name = "manager" then 3 else if name = "engineer" then 2 else 0

private theorem volume_pos {v : Int} {s : ℚ} (h : 1 ≤ (v : ℚ) * s) : 1 ≤ scaledTime v s := by
  have h1 : 1 ≤ Pipeline.toInt (v * s) := by
    unfold Pipeline.toInt
    rw [if_pos (by linarith)]
    exact Int.le_floor.mpr (by exact_mod_cast h)
  unfold scaledTime mkTime
  have : TIME_INF = 2000000000 := rfl
  by_cases a : Pipeline.toInt (v * s) > TIME_INF
  · rw [if_pos a, this]; decide
  · rw [if_neg a, if_neg (by omega)]; exact h1

/-- Somebody is needed, the least number is not above the greatest, there is something to do, and one set of workers is enough. -/
def Good (r : Req) : Prop := 1 ≤ r.minCount ∧ r.minCount ≤ r.maxCount ∧ 1 ≤ r.volume ∧ r.minCount ≤ oneSet r.kind

instance (r : Req) : Decidable (Good r) := by unfold Good; infer_instance

private theorem scaled_good {l : List Req} {c s : ℚ} (hl : ∀ r ∈ l, Good r ∧ 1 ≤ (r.volume : ℚ) * c) (hs : c ≤ s) :
    ∀ r ∈ scaleReqs l s, Good r := by
  intro r hr
  obtain ⟨r0, h0, rfl⟩ := List.mem_map.mp hr
  obtain ⟨⟨h1, h2, h3, h4⟩, h5⟩ := hl r0 h0
  refine ⟨h1, le_max_right _ _, volume_pos ?_, h4⟩
  have : (0 : ℚ) ≤ r0.volume := by exact_mod_cast (by omega : (0 : Int) ≤ r0.volume)
  nlinarith

private theorem volume_good {l : List Req} {c s : ℚ} (hl : ∀ r ∈ l, Good r ∧ 1 ≤ (r.volume : ℚ) * c) (hs : c ≤ s) :
    ∀ r ∈ mulVolume l s, Good r := by
  intro r hr
  obtain ⟨r0, h0, rfl⟩ := List.mem_map.mp hr
  obtain ⟨⟨h1, h2, h3, h4⟩, h5⟩ := hl r0 h0
  refine ⟨h1, h2, volume_pos ?_, h4⟩
  have : (0 : ℚ) ≤ r0.volume := by exact_mod_cast (by omega : (0 : Int) ≤ r0.volume)
  nlinarith

private theorem holes_good {l : List Req} {c e : ℚ} {b : Nat} (hl : ∀ r ∈ l, Good r ∧ 1 ≤ (r.volume : ℚ) * c) (he : 0 ≤ e) :
    ∀ r ∈ mulBoreholes l b c e, Good r := by
  refine volume_good hl ?_
  have : (0 : ℚ) ≤ b := Nat.cast_nonneg b
  nlinarith

/-- Every requirement of every synthetic work makes sense: it asks for somebody, its least number of workers is not above its greatest
number, it has something to do, and one set of workers in the default proportions has enough of the profession. -/
theorem requirements_make_sense (k : Kind) (d : ℚ) (boreholes : Nat) (h : Length k d) :
    ∀ r ∈ reqsOf k d boreholes,
      1 ≤ r.minCount ∧ r.minCount ≤ r.maxCount ∧ 1 ≤ r.volume ∧ r.minCount ≤ oneSet r.kind := by
  cases k
  case minRoad => exact scaled_good (c := 5) (by decide +kernel) h.1
  case tempRoad => exact scaled_good (c := 5) (by decide +kernel) h.1
  case finalRoad => exact scaled_good (c := 5) (by decide +kernel) h.1
  case engineering => exact holes_good (by decide +kernel) (by norm_num)
  case powerLine => exact scaled_good (c := 1 / 2) (by decide +kernel) h.1
  case highPowerLine => exact scaled_good (c := 5) (by decide +kernel) h.1
  case pipe => exact scaled_good (c := 1 / 2) (by decide +kernel) h.1
  case pipeNode => exact fun r hr => (by decide +kernel : ∀ r ∈ pipeNode, Good r) r hr
  case looping => exact scaled_good (c := 1 / 2) (by decide +kernel) h.1
  case metering => exact fun r hr => (by decide +kernel : ∀ r ∈ metering, Good r) r hr
  case ktpNep => exact holes_good (by decide +kernel) (by norm_num)
  case drainageTank => exact holes_good (by decide +kernel) (by norm_num)
  case waterBlock => exact scaled_good (c := 11 / 10) (by decide +kernel) (le_refl _)
  case automationBlock => exact scaled_good (c := 9 / 10) (by decide +kernel) (le_refl _)
  case dosageBlock => exact scaled_good (c := 1) (by decide +kernel) (le_refl _)
  case startFilters => exact scaled_good (c := 105 / 100) (by decide +kernel) (le_refl _)
  case firewallTank => exact scaled_good (c := 105 / 100) (by decide +kernel) (le_refl _)
  case borehole => exact fun r hr => (by decide +kernel : ∀ r ∈ borehole, Good r) r hr
  case pipeNet => exact scaled_good (c := 1 / 20) (by decide +kernel) h.1
  case powerNet => exact scaled_good (c := 1 / 20) (by decide +kernel) h
  case mast => exact fun r hr => (by decide +kernel : ∀ r ∈ lightMast, Good r) r hr
  case handing => exact holes_good (by decide +kernel) (by norm_num)

/-- A requirement that grows with the length asks for the same least number of workers, for a volume and a greatest number in proportion. -/
theorem scaled (r : Req) (s : ℚ) (hs : 0 ≤ s) (hv : 0 ≤ r.volume) (hi : (r.volume : ℚ) * s < 2000000001) :
    (r.scaleAll s).kind = r.kind ∧ (r.scaleAll s).minCount = r.minCount ∧
      ((r.scaleAll s).volume : ℚ) ≤ r.volume * s ∧ r.volume * s < (r.scaleAll s).volume + 1 ∧
      ((r.scaleAll s).maxCount = r.minCount ∨ |((r.scaleAll s).maxCount : ℚ) - r.maxCount * s| ≤ 1 / 2) ∧
      r.minCount ≤ (r.scaleAll s).maxCount := by
  have h0 : (0 : ℚ) ≤ r.volume * s := mul_nonneg (by exact_mod_cast hv) hs
  have hvol : (r.scaleAll s).volume = ⌊(r.volume : ℚ) * s⌋ := by
    show scaledTime r.volume s = _
    have h1 : 0 ≤ ⌊(r.volume : ℚ) * s⌋ := Int.floor_nonneg.mpr h0
    have h2 : ⌊(r.volume : ℚ) * s⌋ < 2000000001 := Int.floor_lt.mpr (by exact_mod_cast hi)
    have : TIME_INF = 2000000000 := rfl
    unfold scaledTime Pipeline.toInt mkTime
    rw [if_pos h0, if_neg (by omega), if_neg (by omega)]
  refine ⟨rfl, rfl, ?_, ?_, ?_, le_max_right _ _⟩
  · rw [hvol]; exact Int.floor_le _
  · rw [hvol]; exact Int.lt_floor_add_one _
  · show max _ _ = _ ∨ |((max _ _ : Int) : ℚ) - _| ≤ _
    rcases max_choice (Pipeline.roundHalfEven (r.maxCount * s)) r.minCount with h | h
    · right
      rw [h]
      obtain ⟨a, b⟩ := round_bounds (r.maxCount * s)
      rw [abs_le]
      constructor <;> linarith
    · left; exact h

/-- With no length at all nothing is left to do: the generator never makes such a work, but nothing else prevents it. -/
theorem no_length : ∀ r ∈ reqsOf .powerNet 0 0, r.volume = 0 := by decide +kernel

/-- Is the profession asked for?  Asking for no profession is asking for all of them. -/
def Asked : Option (List String) → String → Bool
  | none, _ => true
  | some [], _ => true
  | some l, name => name ∈ l

private theorem map_fst_mapIdx {α : Type} (l : List (String × ℚ)) (f : Nat → String × ℚ → α) :
    (l.mapIdx fun i p => (p.1, f i p)).map Prod.fst = l.map Prod.fst := by
  apply List.ext_getElem
  · simp
  · intro i h1 h2
    simp

/-- The contractor has a worker for each profession of the proportions that is asked for, once and in their order. -/
theorem professions (pack sigma : ℚ) (props : List (String × ℚ)) (available : Option (List String)) (z : Nat → ℚ) :
    (counts pack sigma props available z).map Prod.fst = (props.map Prod.fst).filter (Asked available) := by
  unfold counts
  dsimp only
  rw [map_fst_mapIdx, List.filter_map]
  congr 1
  apply List.filter_congr
  intro p hp
  have hall : (props.map Prod.fst).contains p.1 = true := by
    rw [List.contains_iff_mem]; exact List.mem_map_of_mem hp
  match available with
  | none => simpa [Asked] using ⟨p.2, hp⟩
  | some [] => simpa [Asked] using ⟨p.2, hp⟩
  | some (a :: l) => simp [Asked]

private theorem gaussian_int (m s lo hi z : ℚ) :
    Gaussian.int ⟨m, s, fin lo, fin hi⟩ z =
      some (min (max (Pipeline.roundHalfEven (m + z * s)) (Pipeline.toInt (lo + -100000))) (Pipeline.toInt (hi + 100000))) := rfl

private theorem mem_counts {pack sigma : ℚ} {props : List (String × ℚ)} {available : Option (List String)} {z : Nat → ℚ}
    {x : String × Int} (h : x ∈ counts pack sigma props available z) :
    ∃ p ∈ props, ∃ i, x = (p.1, min (max (Pipeline.roundHalfEven (p.2 * pack + z i * (sigma * (p.2 * pack) / 2)))
      (Pipeline.toInt (p.2 + -100000))) (Pipeline.toInt (p.2 * pack + 100000))) := by
  unfold counts at h
  dsimp only at h
  obtain ⟨i, hi, rfl⟩ := List.mem_mapIdx.mp h
  exact ⟨_, (List.mem_filter.mp (List.getElem_mem hi)).1, i, by rw [gaussian_int]; rfl⟩

private theorem counts_mem {pack sigma : ℚ} {props : List (String × ℚ)} {z : Nat → ℚ} {p : String × ℚ} (h : p ∈ props) :
    ∃ i, (p.1, min (max (Pipeline.roundHalfEven (p.2 * pack + z i * (sigma * (p.2 * pack) / 2)))
      (Pipeline.toInt (p.2 + -100000))) (Pipeline.toInt (p.2 * pack + 100000))) ∈ counts pack sigma props none z := by
  unfold counts
  dsimp only
  have hf : (props.filter fun q => (props.map Prod.fst).contains q.1) = props := by
    apply List.filter_eq_self.mpr
    intro q hq
    rw [List.contains_iff_mem]; exact List.mem_map_of_mem hq
  rw [hf]
  obtain ⟨i, hi, rfl⟩ := List.mem_iff_getElem.mp h
  exact ⟨i, List.mem_mapIdx.mpr ⟨i, hi, by rw [gaussian_int]; rfl⟩⟩

private theorem le_round {m : Int} {q : ℚ} (h : (m : ℚ) ≤ q) : m ≤ Pipeline.roundHalfEven q := by
  obtain ⟨a, _⟩ := round_bounds q
  have : (m : ℚ) - 1 < Pipeline.roundHalfEven q := by linarith
  have : m - 1 < Pipeline.roundHalfEven q := by exact_mod_cast this
  omega

private theorem le_toInt {m : Int} {q : ℚ} (h : (m : ℚ) ≤ q) (h0 : 0 ≤ q) : m ≤ Pipeline.toInt q := by
  unfold Pipeline.toInt
  rw [if_pos h0]
  exact Int.le_floor.mpr h

/-- For `pack` sets of workers the number of workers of a profession is `pack` times its proportion, up to rounding and chance: the
part of chance is `sigma / 2` of that number times the normal random number.

Not proved because false: the number stays between one set and `pack` sets, as the borders given to the interval say;
see `border_exceeded` and `one_set_missed`. -/
theorem numbers_partial (pack sigma : ℚ) (props : List (String × ℚ)) (available : Option (List String)) (z : Nat → ℚ) (c : ℚ)
    (hpack : 1 ≤ pack) (hp : ∀ p ∈ props, 0 ≤ p.2) (hc : ∀ p ∈ props, ∀ i, |z i * (sigma * (p.2 * pack) / 2)| ≤ c) (hs : c ≤ 99998) :
    ∀ x ∈ counts pack sigma props available z, ∃ p ∈ props, x.1 = p.1 ∧ |(x.2 : ℚ) - p.2 * pack| ≤ c + 1 / 2 := by
  intro x hx
  obtain ⟨p, h1, i, rfl⟩ := mem_counts hx
  refine ⟨p, h1, rfl, ?_⟩
  dsimp only
  have h2 := abs_le.mp (hc p h1 i)
  have h3 := hp p h1
  have h4 : p.2 ≤ p.2 * pack := by nlinarith
  obtain ⟨r1, r2⟩ := round_bounds (p.2 * pack + z i * (sigma * (p.2 * pack) / 2))
  obtain ⟨t1, t2⟩ := toInt_bounds (p.2 + -100000)
  obtain ⟨u1, u2⟩ := toInt_bounds (p.2 * pack + 100000)
  have e1 : Pipeline.toInt (p.2 + -100000) ≤ Pipeline.roundHalfEven (p.2 * pack + z i * (sigma * (p.2 * pack) / 2)) := by
    have : (Pipeline.toInt (p.2 + -100000) : ℚ) ≤ Pipeline.roundHalfEven (p.2 * pack + z i * (sigma * (p.2 * pack) / 2)) := by
      linarith [h2.1]
    exact_mod_cast this
  have e2 : Pipeline.roundHalfEven (p.2 * pack + z i * (sigma * (p.2 * pack) / 2)) ≤ Pipeline.toInt (p.2 * pack + 100000) := by
    have : (Pipeline.roundHalfEven (p.2 * pack + z i * (sigma * (p.2 * pack) / 2)) : ℚ) ≤ Pipeline.toInt (p.2 * pack + 100000) := by
      linarith [h2.2]
    exact_mod_cast this
  rw [max_eq_left e1, min_eq_left e2, abs_le]
  constructor <;> linarith [h2.1, h2.2]

/-- A contractor of at least two sets can staff every synthetic work: for each requirement it has a worker of the profession with
at least the least number of workers asked for.  The normal random numbers of CPython are above -9. -/
theorem contractor_staffs (pack : ℚ) (z : Nat → ℚ) (hpack : 2 ≤ pack) (hz : ∀ i, -9 ≤ z i)
    (k : Kind) (d : ℚ) (boreholes : Nat) (h : Length k d) :
    ∀ r ∈ reqsOf k d boreholes, ∃ x ∈ contractor pack z, x.1 = r.kind ∧ r.minCount ≤ x.2 := by
  intro r hr
  obtain ⟨h1, _, _, h4⟩ := requirements_make_sense k d boreholes h r hr
  obtain ⟨p, hp, hk, he⟩ : ∃ p ∈ proportions, p.1 = r.kind ∧ p.2 = oneSet r.kind := by
    unfold oneSet at h4 ⊢
    by_cases a1 : r.kind = "driver"
    · exact ⟨("driver", 6), by decide, a1.symm, by rw [if_pos a1]; rfl⟩
    rw [if_neg a1] at h4 ⊢
    by_cases a2 : r.kind = "fitter"
    · exact ⟨("fitter", 6), by decide, a2.symm, by rw [if_pos a2]; rfl⟩
    rw [if_neg a2] at h4 ⊢
    by_cases a3 : r.kind = "handyman"
    · exact ⟨("handyman", 8), by decide, a3.symm, by rw [if_pos a3]; rfl⟩
    rw [if_neg a3] at h4 ⊢
    by_cases a4 : r.kind = "electrician"
    · exact ⟨("electrician", 2), by decide, a4.symm, by rw [if_pos a4]; rfl⟩
    rw [if_neg a4] at h4 ⊢
    by_cases a5 : r.kind = "manager"
    · exact ⟨("manager", 3), by decide, a5.symm, by rw [if_pos a5]; rfl⟩
    rw [if_neg a5] at h4 ⊢
    by_cases a6 : r.kind = "engineer"
    · exact ⟨("engineer", 2), by decide, a6.symm, by rw [if_pos a6]; rfl⟩
    rw [if_neg a6] at h4
    omega
  obtain ⟨i, hi⟩ := counts_mem (pack := pack) (sigma := 1 / 10) (z := z) hp
  refine ⟨_, hi, hk, ?_⟩
  dsimp only
  have hq : (r.minCount : ℚ) ≤ p.2 := by rw [he]; exact_mod_cast h4
  have hp1 : (1 : ℚ) ≤ p.2 := le_trans (by exact_mod_cast h1) hq
  have hpp : 2 * p.2 ≤ p.2 * pack := by nlinarith
  have hzi := hz i
  refine le_min (le_trans (le_round ?_) (le_max_left _ _)) (le_toInt ?_ ?_)
  · have : 11 / 20 * (p.2 * pack) ≤ p.2 * pack + z i * (1 / 10 * (p.2 * pack) / 2) := by nlinarith
    linarith
  · linarith
  · linarith

/-- One set of workers is not always enough: with an unlucky number there are 5 drivers, and a power line needs 6. -/
theorem one_set_missed : contractor 1 (fun _ => -2) =
    [("driver", 5), ("fitter", 5), ("handyman", 7), ("electrician", 2), ("manager", 3), ("engineer", 2)] ∧
    (∀ r ∈ reqsOf .powerLine 1 0, r.kind = "driver" → r.minCount = 6) ∧ ∃ r ∈ reqsOf .powerLine 1 0, r.kind = "driver" := by
  decide +kernel

/-- The other border does not hold either: 66 drivers instead of at most 60. -/
theorem border_exceeded : ("driver", 66) ∈ contractor 10 (fun _ => 2) := by decide +kernel

/-- With a wide scatter, the number of workers may be negative. -/
theorem negative_number : counts 1 1 proportions (some ["driver"]) (fun _ => -3) = [("driver", -3)] := by decide +kernel

/-- An example for `requirements_make_sense` and `contractor_staffs`: a road of 6.5 km. -/
example : Length .finalRoad (13 / 2) ∧ reqsOf .finalRoad (13 / 2) 0 =
    [⟨"driver", 975, 3, 58⟩, ⟨"manager", 325, 1, 20⟩, ⟨"handyman", 1950, 6, 117⟩] ∧
    contractor 2 (fun _ => -9) = [("driver", 7), ("fitter", 7), ("handyman", 9), ("electrician", 2), ("manager", 3), ("engineer", 2)] := by
  refine ⟨⟨by norm_num, by norm_num⟩, by decide +kernel, by decide +kernel⟩

/-- An example for `scaled`. -/
example : (⟨"driver", 15, 3, 9⟩ : Req).scaleAll (13 / 10) = ⟨"driver", 19, 3, 12⟩ := by decide +kernel

/-- An example for `numbers_partial` and `professions`: the hypotheses hold with `c = 2`. -/
example : counts 2 (1 / 10) [("a", 10), ("b", 4)] (some ["b", "c"]) (fun _ => 1) = [("b", 8)] ∧
    ∀ p ∈ [("a", (10 : ℚ)), ("b", 4)], |(1 : ℚ) * (1 / 10 * (p.2 * 2) / 2)| ≤ 2 := by decide +kernel

end Sampo.C76
