import Verif.Model.Sampler
import Mathlib.Algebra.Order.Field.Rat
import Mathlib.Algebra.Order.Floor.Ring
import Mathlib.Data.Rat.Floor
import Mathlib.Data.List.Perm.Basic
import Mathlib.Tactic.Linarith
import Mathlib.Tactic.NormNum

/-!
# C120: sampled works
-/

namespace Sampo.C120
open Sampler

/-- Random numbers that can be drawn: the types of workers in some order, integers within their ranges, a number from 0 to 1. -/
structure Possible (d : Draws) : Prop where
  names : d.names.Perm workerTypes
  int : ∀ k lo hi, lo ≤ hi → lo ≤ d.int k lo hi ∧ d.int k lo hi ≤ hi
  unit : 0 ≤ d.unit ∧ d.unit < 1

variable {d : Draws} {volume count : MinMax Int}

private theorem specific (hd : Possible d) (hv : volume.min ≤ volume.max) : ∀ (k : Nat) (names : List String),
    ∃ l, specificReqs d volume count k names = some l ∧ l.map (·.kind) = names ∧
      ∀ r ∈ l, (volume.min : ℚ) ≤ r.volume ∧ r.volume ≤ volume.max ∧ (∃ n : Int, r.volume = n) ∧ r.minCount = count.min ∧ r.maxCount = count.max
  | _, [] => ⟨[], rfl, rfl, fun r hr => by simp at hr⟩
  | k, name :: names => by
    obtain ⟨l, h1, h2, h3⟩ := specific hd hv (k + 1) names
    have hi := hd.int k volume.min volume.max hv
    refine ⟨⟨name, (d.int k volume.min volume.max : ℚ), count.min, count.max⟩ :: l, ?_, by simp [h2], ?_⟩
    · rw [specificReqs, workerReq, randint, if_pos hv, h1]
      rfl
    · intro r hr
      rcases List.mem_cons.1 hr with rfl | hr
      · exact ⟨Int.cast_le.2 hi.1, Int.cast_le.2 hi.2, ⟨_, rfl⟩, rfl, rfl⟩
      · exact h3 r hr

/-- A sampled work: it has the given name and group, the given id or, without one, the new one, a volume within the limits, and one to six
requirements for different types of workers, each with a whole volume within the limits and the given counts. -/
theorem sampled (hd : Possible d) (hv : volume.min ≤ volume.max) (name id group : String) {workVolume : MinMax ℚ}
    (hw : workVolume.min ≤ workVolume.max) :
    ∃ w, workUnit d name id group workVolume volume count = some w ∧ w.modelName = name ∧ w.group = group ∧
      w.id = (if id = "" then d.id else id) ∧ workVolume.min ≤ w.volume ∧ w.volume ≤ workVolume.max ∧
      1 ≤ w.reqs.length ∧ w.reqs.length ≤ 6 ∧ (w.reqs.map (·.kind)).Nodup ∧ (∀ r ∈ w.reqs, r.kind ∈ workerTypes) ∧
      ∀ r ∈ w.reqs, (volume.min : ℚ) ≤ r.volume ∧ r.volume ≤ volume.max ∧ (∃ n : Int, r.volume = n) ∧
        r.minCount = count.min ∧ r.maxCount = count.max := by
  have hlen : d.names.length = 6 := hd.names.length_eq
  have h16 : (1 : Int) ≤ (d.names.length : Int) := by omega
  have hi := hd.int 0 1 d.names.length h16
  obtain ⟨l, h1, h2, h3⟩ := specific (count := count) hd hv 1 (d.names.take (d.int 0 1 d.names.length).toNat)
  have hl : l.length = (d.int 0 1 d.names.length).toNat := by
    rw [← List.length_map (f := fun r : Req => r.kind), h2, List.length_take]
    omega
  refine ⟨⟨if id = "" then d.id else id, name, l, group, d.unit * (workVolume.max - workVolume.min) + workVolume.min⟩, ?_, rfl, rfl, rfl,
    ?_, ?_, ?_, ?_, ?_, ?_, h3⟩
  · rw [workUnit, reqsList, randint, if_pos h16]
    dsimp only
    rw [h1]
    rfl
  · have := mul_nonneg hd.unit.1 (sub_nonneg.2 hw)
    show workVolume.min ≤ _ * _ + _
    linarith
  · have := mul_le_mul_of_nonneg_right hd.unit.2.le (sub_nonneg.2 hw)
    show _ * _ + _ ≤ workVolume.max
    linarith
  · show 1 ≤ l.length
    omega
  · show l.length ≤ 6
    omega
  · show (l.map (·.kind)).Nodup
    rw [h2]
    exact (hd.names.nodup_iff.2 (by decide)).sublist (List.take_sublist _ _)
  · intro r hr
    have : r.kind ∈ l.map (·.kind) := List.mem_map_of_mem hr
    rw [h2] at this
    exact hd.names.mem_iff.1 (List.mem_of_mem_take this)

/-- Sampling raises an error exactly if the range of volumes is empty. -/
theorem error_iff (hd : Possible d) (name id group : String) (workVolume : MinMax ℚ) :
    workUnit d name id group workVolume volume count = none ↔ volume.max < volume.min := by
  have hlen : d.names.length = 6 := hd.names.length_eq
  have h16 : (1 : Int) ≤ (d.names.length : Int) := by omega
  have hi := hd.int 0 1 d.names.length h16
  constructor
  · intro h
    by_contra hv
    obtain ⟨l, h1, -⟩ := specific (count := count) hd (not_lt.1 hv) 1 (d.names.take (d.int 0 1 d.names.length).toNat)
    rw [workUnit, reqsList, randint, if_pos h16] at h
    dsimp only at h
    rw [h1] at h
    simp at h
  · intro h
    rw [workUnit, reqsList, randint, if_pos h16]
    dsimp only
    obtain ⟨m, hm⟩ : ∃ m, (d.int 0 1 d.names.length).toNat = m + 1 := ⟨(d.int 0 1 d.names.length).toNat - 1, by omega⟩
    rw [hm]
    match hn : d.names with
    | [] => rw [hn] at hlen; simp at hlen
    | n :: ns =>
      rw [List.take_succ_cons, specificReqs, workerReq, randint, if_neg (not_le.2 h)]
      rfl

private theorem round_int (n : Int) : Pipeline.roundHalfEven (n : ℚ) = n := by
  unfold Pipeline.roundHalfEven
  rw [Int.floor_intCast, sub_self, if_pos (by norm_num)]

/-- A similar work: group and, unless another one is given, the name of the exemplar; volume and volumes of requirements times the scalar;
the same types of workers in the same order with the same least counts and greatest counts that are not less.  With the scalar 1 and sound
counts it has the volume and the requirements of the exemplar. -/
theorem similar_work (d : Draws) (w : Work) (scalar : ℚ) (name id : String) :
    (similar d w scalar name id).group = w.group ∧
    (similar d w scalar name id).modelName = (if name = "" then w.modelName else name) ∧
    (similar d w scalar name id).id = (if id = "" then d.id else id) ∧ (similar d w scalar name id).volume = w.volume * scalar ∧
    (similar d w scalar name id).reqs.map (fun r => (r.kind, r.volume, r.minCount)) =
      w.reqs.map (fun r => (r.kind, r.volume * scalar, r.minCount)) ∧
    (∀ r ∈ (similar d w scalar name id).reqs, r.minCount ≤ r.maxCount) ∧
    ((∀ r ∈ w.reqs, r.minCount ≤ r.maxCount) → (similar d w 1 name id).volume = w.volume ∧ (similar d w 1 name id).reqs = w.reqs) := by
  refine ⟨rfl, rfl, rfl, rfl, ?_, ?_, fun h => ⟨mul_one _, ?_⟩⟩
  · simp [similar, Req.scaleAll, Function.comp_def]
  · intro r hr
    obtain ⟨r', -, rfl⟩ := List.mem_map.1 hr
    exact le_max_right _ _
  · show w.reqs.map (Req.scaleAll 1) = w.reqs
    conv_rhs => rw [← List.map_id w.reqs]
    refine List.map_congr_left fun r hr => ?_
    simp only [Req.scaleAll, mul_one, round_int, max_eq_left (h r hr)]
    rfl

/-- The greatest count of a similar work: the product rounded to an integer next to it, if that
is not below the least count. -/
theorem similar_count (d : Draws) (w : Work) (scalar : ℚ) (name id : String) (i : Nat) (r r' : Req) (hr : w.reqs[i]? = some r)
    (hr' : (similar d w scalar name id).reqs[i]? = some r') :
    r'.maxCount = r.minCount ∧ r.maxCount * scalar ≤ r.minCount + 1 / 2 ∨
      r.minCount ≤ r'.maxCount ∧ |(r'.maxCount : ℚ) - r.maxCount * scalar| ≤ 1 / 2 := by
  have he : r' = Req.scaleAll scalar r := by
    have : (w.reqs.map (Req.scaleAll scalar))[i]? = some r' := hr'
    rw [List.getElem?_map, hr, Option.map_some, Option.some.injEq] at this
    exact this.symm
  subst he
  have hround : ∀ q : ℚ, |(Pipeline.roundHalfEven q : ℚ) - q| ≤ 1 / 2 := by
    intro q
    have h1 := Int.floor_le q
    have h2 := Int.lt_floor_add_one q
    unfold Pipeline.roundHalfEven
    rw [abs_le]
    split
    · constructor <;> linarith
    · rename_i h3
      split
      · push_cast
        constructor <;> linarith
      · rename_i h4
        split
        · constructor <;> linarith
        · push_cast
          constructor <;> linarith
  have h := hround (r.maxCount * scalar)
  show max _ _ = _ ∧ _ ∨ _ ≤ max _ _ ∧ |((max _ _ : Int) : ℚ) - _| ≤ _
  rcases le_total (Pipeline.roundHalfEven (r.maxCount * scalar)) r.minCount with hle | hle
  · left
    rw [max_eq_right hle]
    have hq : ((Pipeline.roundHalfEven (r.maxCount * scalar) : Int) : ℚ) ≤ r.minCount := by exact_mod_cast hle
    rw [abs_le] at h
    exact ⟨rfl, by linarith [h.1]⟩
  · right
    rw [max_eq_left hle]
    exact ⟨hle, h⟩

private def draws : Draws := ⟨["engineer", "driver", "fitter", "handyman", "electrician", "manager"], fun k lo hi => if k = 0 then max lo (min hi 2) else lo, 1 / 4, "new"⟩

private theorem possible : Possible draws := by
  refine ⟨by decide, fun k lo hi h => ?_, by decide +kernel, by decide +kernel⟩
  simp only [draws]
  split
  · omega
  · omega

private def work : Work := ⟨"w", "walls", [⟨"driver", 10, 2, 5⟩, ⟨"fitter", 7, 3, 4⟩], "g", 12⟩

example := sampled (volume := ⟨1, 50⟩) (count := ⟨1, 100⟩) possible (by decide) "walls" "" "g" (workVolume := ⟨1 / 10, 100⟩) (by decide +kernel)

example : workUnit draws "walls" "" "g" ⟨1 / 10, 100⟩ ⟨1, 50⟩ ⟨1, 100⟩ =
    some ⟨"new", "walls", [⟨"engineer", 1, 1, 100⟩, ⟨"driver", 1, 1, 100⟩], "g", 1003 / 40⟩ := by decide +kernel

example : workUnit draws "walls" "" "g" ⟨1 / 10, 100⟩ ⟨50, 1⟩ ⟨1, 100⟩ = none := (error_iff possible _ _ _ _).2 (by decide)

example : similar draws work (1 / 2) "" "x" = ⟨"x", "walls", [⟨"driver", 5, 2, 2⟩, ⟨"fitter", 7 / 2, 3, 3⟩], "g", 6⟩ := by decide +kernel

example := (similar_work draws work (1 / 2) "" "x").2.2.2.2.2.2 (by decide)

example := similar_count draws work (3 / 2) "" "x" 0 ⟨"driver", 10, 2, 5⟩ ⟨"driver", 15, 2, 8⟩ rfl (by decide +kernel)

end Sampo.C120
