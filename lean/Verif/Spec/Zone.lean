import Verif.Model.Zone

/-!
# Specification vocabulary for zones
-/

namespace Sampo.Zone

/-- A work uses a zone in a status from `start` to `finish`. -/
structure Use where
  zone : Nat
  status : Int
  start : Int
  finish : Int
deriving DecidableEq, Repr

/-- Both uses cover a common moment. -/
def Use.Overlaps (a b : Use) : Prop := ∃ t, a.start ≤ t ∧ t < a.finish ∧ b.start ≤ t ∧ t < b.finish

/-- Two uses that cannot be at the same time: the same zone in different statuses, none of which is 0 ("not stated"). -/
def Use.Conflicts (a b : Use) : Prop := a.zone = b.zone ∧ a.status ≠ 0 ∧ b.status ≠ 0 ∧ a.status ≠ b.status

/-- The time was given by one of the two ways in which schedulers ask the zone timeline: a search from some moment on, or a
question about this moment, both for some expected duration. -/
def Granted (costs : Int → Int → Int) (tl : Timeline) (reqs : List Req) (start : Int) : Prop :=
  (∃ fuel parent exec, 0 ≤ parent ∧ 0 ≤ exec ∧ findMinStart fuel costs tl reqs parent exec = some (some start)) ∨
  ∃ exec, 0 ≤ start ∧ canSchedule costs tl reqs start exec = true

/-- `History cfg n tl us`: `tl` is the result of placing works one after the other on a fresh zone timeline; `us` are their uses
of zones, latest first, and `n` is larger than the numbers of all works so far.  Every work is placed at a granted time with
any duration.  The numbers of works grow; only changes of status without work (duration 0) may have smaller ones. -/
inductive History (cfg : Config) : Int → Timeline → List Use → Prop
  | fresh : History cfg 0 (init cfg) []
  | place {n : Int} {tl tl' : Timeline} {us : List Use} {trs : List Transition} (idx : Int) (reqs : List Req)
      (start exec : Int) :
      History cfg n tl us →
      (reqs.map (·.zone)).Nodup →
      0 ≤ idx → 0 ≤ exec → (n ≤ idx ∨ exec = 0) →
      Granted cfg.costs tl reqs start →
      update cfg.costs tl idx reqs start exec = some (tl', trs) →
      History cfg (max n (idx + 1)) tl' ((reqs.map fun q => ⟨q.zone, q.status, start, start + exec⟩) ++ us)

end Sampo.Zone
