import Verif.Lemmas.GeneticRun
import Verif.Lemmas.GenericLive
import Verif.Props.C55_Offspring
import Verif.Spec.ByPriority

/-! Tables and first chromosomes of the genetic scheduler. -/

namespace Sampo.GeneticRun

open Genetic (Ind Problem)
open GeneticRes (Chrom contractorBorders)

variable {J : Project} {m : Nat}

theorem meets_full {c : Contractor} {reqs : List WorkerReq} {team : List Worker} (h : C16.Meets c reqs team) :
    ∀ w ∈ team, ∃ r ∈ reqs, w.name = r.kind ∧ w.contractor = c.id ∧ r.minCount ≤ w.count ∧ w.count ≤ r.maxCount ∧
      ∃ n, c.workers.lookup r.kind = some n ∧ w.count ≤ n := by
  induction h with
  | nil => simp
  | cons hd _ ih =>
    intro w hw
    rcases List.mem_cons.mp hw with rfl | hw
    · exact ⟨_, List.mem_cons_self .., hd⟩
    · obtain ⟨r, hr, h⟩ := ih w hw
      exact ⟨r, List.mem_cons_of_mem _ hr, h⟩

theorem Sound.kinds (h : Sound J m) : J.kinds = m := h.contractors.length

theorem Sound.borders_nonneg (h : Sound J m) {c k : Nat} (hc : c < J.contractors.length) (hk : k < m) : 0 ≤ J.borders c k := by
  have hc' : J.contractors[c]? = some J.contractors[c] := List.getElem?_eq_getElem hc
  have := (h.contractors.pool hc' hk).2
  exact h.contractors.counts _ (List.getElem_mem hc) _ (lookup_mem this)

/-- What `prepare` gives. -/
structure Prepared (J : Project) (m : Nat) (heads : List Nat) (P : Problem) : Prop where
  nodup : heads.Nodup
  isHead : ∀ v, v ∈ heads ↔ J.graph.IsHead J.nodes v
  n : P.n = heads.length
  kinds : P.m = m
  nc : P.nc = J.contractors.length
  parents : ∀ i j, j ∈ P.parents i ↔
    ∃ a b, index heads a = some i ∧ index heads b = some j ∧ J.graph.HeadDependsOn J.nodes a b
  children : ∀ i j, j ∈ P.children i ↔
    ∃ a b, index heads a = some i ∧ index heads b = some j ∧ J.graph.HeadDependsOn J.nodes b a
  prio : ∀ i, P.prio i = J.prio (node heads i)
  lo : ∀ i, P.lo i = limit (·.minCount) (J.reqs (node heads i))
  hi : ∀ i, P.hi i = limit (·.maxCount) (J.reqs (node heads i))
  cap : P.cap = J.borders
  enabled : ∀ i, P.enabled i = (J.spec (node heads i)).enabled

theorem prepare_prepared (h : Sound J m) {heads : List Nat} {P : Problem} (hp : prepare J = some (heads, P)) :
    Prepared J m heads P := by
  unfold prepare at hp
  simp only [Option.bind_eq_some_iff] at hp
  obtain ⟨⟨hs, par, chi⟩, hc, rp, hrp, rc, hrc, hp⟩ := hp
  split at hp
  · simp only [Option.some.injEq, Prod.mk.injEq] at hp
    obtain ⟨rfl, rfl⟩ := hp
    obtain ⟨c1, c2, -⟩ := C22.collapse_preserves_dependencies h.graph hc
    have ht := C22.collapse_tables h.graph hc
    refine ⟨c1, c2, rfl, h.kinds, rfl, fun i j => ?_, fun i j => ?_, fun _ => rfl, fun _ => rfl, fun _ => rfl, rfl, fun _ => rfl⟩
    · simp only
      rw [relation_spec c1 hrp]
      simp only [(ht _ _).1]
    · simp only
      rw [relation_spec c1 hrc]
      simp only [(ht _ _).2]
  · cases hp

theorem prepare_some (h : Sound J m) : ∃ heads P, prepare J = some (heads, P) := by
  cases hc : Heads.collapse J.graph J.nodes with
  | none => exact absurd h.acyclic ((C22.error_iff_chain_cycle h.graph).1 hc)
  | some r =>
    obtain ⟨heads, par, chi⟩ := r
    obtain ⟨c1, c2, c3, c4, c5, c6, c7⟩ := C22.collapse_preserves_dependencies h.graph hc
    obtain ⟨rp, hrp⟩ := relation_some (heads := heads) (d := par) (by
      rintro ⟨v, l⟩ he
      exact ⟨(c2 v).2 ((c4 v).1 ⟨l, he⟩), fun b hb => (c2 b).2 ((c6 v l he b).1 hb).2.1⟩)
    obtain ⟨rc, hrc⟩ := relation_some (heads := heads) (d := chi) (by
      rintro ⟨v, l⟩ he
      exact ⟨(c2 v).2 ((c5 v).1 ⟨l, he⟩), fun b hb => (c2 b).2 ((c7 v l he b).1 hb).1⟩)
    unfold prepare
    simp only [hc, hrp, hrc, Option.bind_some]
    rw [if_pos]
    · exact ⟨_, _, rfl⟩
    · rw [List.all_eq_true]
      intro v _
      rw [Bool.and_eq_true, List.all_eq_true, List.all_eq_true]
      refine ⟨fun r hr => decide_eq_true ?_, fun c hc => decide_eq_true (h.spec v c hc)⟩
      rw [h.kinds]
      exact (h.reqs v).2.2 r hr

theorem Prepared.wellFormed (h : Sound J m) {heads : List Nat} {P : Problem} (hp : Prepared J m heads P) : C55.WellFormed P where
  nonempty := by
    rw [hp.n]
    intro h0
    obtain ⟨v, hv⟩ := List.exists_mem_of_ne_nil _ h.works
    obtain ⟨k, ⟨hk, -⟩, -⟩ := C22.one_head h.graph v hv
    have := (hp.isHead k).2 hk
    rw [List.length_eq_zero_iff.mp h0] at this
    simp at this
  inverse v c := by
    rw [hp.children, hp.parents]
    constructor
    · rintro ⟨a, b, ha, hb, hd⟩; exact ⟨b, a, hb, ha, hd⟩
    · rintro ⟨a, b, ha, hb, hd⟩; exact ⟨b, a, hb, ha, hd⟩
  irreflexive v := by
    rw [hp.parents]
    rintro ⟨a, b, ha, hb, hd⟩
    exact hd.2.2.1 (index_inj hp.nodup hb ha)
  closed v _ p hpv := by
    rw [hp.parents] at hpv
    obtain ⟨a, b, -, hb, -⟩ := hpv
    rw [hp.n]
    exact index_lt hp.nodup hb
  priority v p hpv := by
    rw [hp.parents] at hpv
    obtain ⟨a, b, ha, hb, hd⟩ := hpv
    rw [hp.prio, hp.prio, node_of_index hp.nodup ha, node_of_index hp.nodup hb]
    exact h.prios a b hd

/-! ### Conversion of a schedule -/

theorem writeTeam_spec {i cid : Nat} {ws : List Worker} (hcid : cid < J.contractors.length)
    (hw : ∀ w ∈ ws, w.name < J.kinds ∧ w.contractor = cid) (hnd : (ws.map (·.name)).Nodup) (ch : Chrom) :
    ∃ ch', writeTeam J i ws ch = some ch' ∧ ch'.border = ch.border ∧ (∀ j, j ≠ i → ch'.amount j = ch.amount j) ∧
      (∀ j, j ≠ i → ch'.contractor j = ch.contractor j) ∧ (∀ w ∈ ws, ch'.amount i w.name = w.count) ∧
      (∀ k, k ∉ ws.map (·.name) → ch'.amount i k = ch.amount i k) ∧ (ws ≠ [] → ch'.contractor i = cid) ∧
      (ws = [] → ch'.contractor i = ch.contractor i) := by
  induction ws generalizing ch with
  | nil => exact ⟨ch, rfl, rfl, fun _ _ => rfl, fun _ _ => rfl, by simp, fun _ _ => rfl, fun h => absurd rfl h, fun _ => rfl⟩
  | cons w ws ih =>
    obtain ⟨h1, h2⟩ := hw w (by simp)
    rw [List.map_cons, List.nodup_cons] at hnd
    obtain ⟨ch', e, e1, e2, e3, e4, e5, e6, e7⟩ := ih (fun x hx => hw x (by simp [hx])) hnd.2
      { ch with
        amount := fun j k => if j = i ∧ k = w.name then w.count else ch.amount j k
        contractor := fun j => if j = i then w.contractor else ch.contractor j }
    refine ⟨ch', ?_, e1, ?_, ?_, ?_, ?_, ?_, by simp⟩
    · rw [writeTeam, if_pos ⟨h1, by rw [h2]; exact hcid⟩]; exact e
    · intro j hj; rw [e2 j hj]; funext k; simp [hj]
    · intro j hj; rw [e3 j hj]; simp [hj]
    · intro x hx
      rcases List.mem_cons.mp hx with rfl | hx
      · rw [e5 _ hnd.1]; simp
      · exact e4 x hx
    · intro k hk
      rw [List.map_cons, List.mem_cons, not_or] at hk
      rw [e5 k hk.2]; simp [hk.1]
    · intro _
      by_cases hws : ws = []
      · rw [e7 hws]; simp [h2]
      · exact e6 hws

/-- Row `i` of the chromosome holds the team of a scheduled work. -/
structure Holds (J : Project) (v i : Nat) (x : SWork) (ch : Chrom) : Prop where
  amount : ∀ w ∈ x.team, ch.amount i w.name = w.count
  others : ∀ k, k ∉ x.team.map (·.name) → ch.amount i k = 0
  contractor : x.team ≠ [] → ch.contractor i = x.contractor
  known : ch.contractor i < J.contractors.length
  enabled : (J.spec v).enabled (ch.contractor i) = true

theorem Holds.congr {v i : Nat} {x : SWork} {ch ch' : Chrom} (h : Holds J v i x ch) (ha : ch'.amount i = ch.amount i)
    (hc : ch'.contractor i = ch.contractor i) : Holds J v i x ch' :=
  ⟨fun w hw => by rw [ha]; exact h.amount w hw, fun k hk => by rw [ha]; exact h.others k hk,
    fun hx => by rw [hc]; exact h.contractor hx, by rw [hc]; exact h.known, by rw [hc]; exact h.enabled⟩

theorem Sound.staffs_team (h : Sound J m) {v : Nat} {team : List Worker} {cid : Nat}
    (hs : C89.Staffs J.contractors J.spec J.reqs v team cid) :
    cid < J.contractors.length ∧ (J.spec v).enabled cid = true ∧ (∀ w ∈ team, w.name < J.kinds ∧ w.contractor = cid) ∧
      (team.map (·.name)).Nodup := by
  obtain ⟨c, hc, rfl, had, hm⟩ := hs
  obtain ⟨j, hj, hjc⟩ := List.mem_iff_getElem.mp hc
  have hid := h.contractors.ids j c (by rw [List.getElem?_eq_getElem hj, hjc])
  refine ⟨by omega, ?_, fun w hw => ?_, ?_⟩
  · rcases had with h1 | h1
    · simp [WorkSpec.enabled, h1]
    · simp [WorkSpec.enabled, h1]
  · obtain ⟨r, hr, h1, h2⟩ := meets_full hm w hw
    rw [h.kinds, h1]
    exact ⟨(h.reqs v).2.2 r hr, h2.1⟩
  · rw [(meets_names hm).1]
    exact (h.reqs v).2.1

theorem writeWork_spec (h : Sound J m) {heads : List Nat} {first : List Nat → Nat} (hfirst : ∀ l, l ≠ [] → first l ∈ l)
    {sw : Sched} {rows v i : Nat} {x : SWork} (hi : index heads v = some i) (hr : i < rows) (hx : sw.get v = some x)
    (hs : C89.Staffs J.contractors J.spec J.reqs v x.team x.contractor) (ch : Chrom) (h0 : ∀ k, ch.amount i k = 0) :
    ∃ ch', writeWork J heads first sw rows v ch = some ch' ∧ ch'.border = ch.border ∧
      (∀ j, j ≠ i → ch'.amount j = ch.amount j ∧ ch'.contractor j = ch.contractor j) ∧ Holds J v i x ch' := by
  unfold writeWork
  simp only [hi, hx, Option.bind_some, if_pos hr]
  obtain ⟨t1, t2, t3, t4⟩ := h.staffs_team hs
  by_cases ht : x.team.isEmpty = true
  · rw [if_pos ht]
    have ht' : x.team = [] := by simpa using ht
    set c := if (J.spec v).contractors.isEmpty then 0 else first (J.spec v).contractors with hcdef
    have hc : c < J.contractors.length ∧ (J.spec v).enabled c = true := by
      by_cases he : (J.spec v).contractors.isEmpty = true
      · rw [hcdef, if_pos he]
        refine ⟨List.length_pos_of_ne_nil h.contractors.nonempty, ?_⟩
        simp [WorkSpec.enabled, he]
      · rw [hcdef, if_neg he]
        have := hfirst (J.spec v).contractors (by simpa using he)
        exact ⟨h.spec v _ this, by simp [WorkSpec.enabled, this]⟩
    simp only [if_pos hc.1]
    refine ⟨_, rfl, rfl, fun j hj => ⟨rfl, by simp [hj]⟩, ⟨by simp [ht'], fun k _ => h0 k, fun hne => absurd ht' hne, ?_, ?_⟩⟩
    · simpa using hc.1
    · simpa using hc.2
  · rw [if_neg ht]
    have ht' : x.team ≠ [] := by simpa using ht
    obtain ⟨ch', e, e1, e2, e3, e4, e5, e6, -⟩ := writeTeam_spec (i := i) t1 t3 t4 ch
    exact ⟨ch', e, e1, fun j hj => ⟨e2 j hj, e3 j hj⟩, ⟨e4, fun k hk => by rw [e5 k hk, h0],
      fun _ => e6 ht', by rw [e6 ht']; exact t1, by rw [e6 ht']; exact t2⟩⟩

theorem writeWorks_spec (h : Sound J m) {heads : List Nat} (hnd : heads.Nodup) {first : List Nat → Nat}
    (hfirst : ∀ l, l ≠ [] → first l ∈ l) {sw : Sched} {rows : Nat} {vs : List Nat} (hvs : vs.Nodup)
    (hv : ∀ v ∈ vs, ∃ i, index heads v = some i ∧ i < rows)
    (hs : ∀ v ∈ vs, ∃ x, sw.get v = some x ∧ C89.Staffs J.contractors J.spec J.reqs v x.team x.contractor)
    (ch : Chrom) (h0 : ∀ v ∈ vs, ∀ i, index heads v = some i → ∀ k, ch.amount i k = 0) :
    ∃ ch', writeWorks J heads first sw rows vs ch = some ch' ∧ ch'.border = ch.border ∧
      (∀ j, (∀ v ∈ vs, index heads v ≠ some j) → ch'.amount j = ch.amount j ∧ ch'.contractor j = ch.contractor j) ∧
      ∀ v ∈ vs, ∀ i x, index heads v = some i → sw.get v = some x → Holds J v i x ch' := by
  induction vs generalizing ch with
  | nil => exact ⟨ch, rfl, rfl, fun _ _ => ⟨rfl, rfl⟩, by simp⟩
  | cons v vs ih =>
    obtain ⟨i, hi, hr⟩ := hv v (by simp)
    obtain ⟨x, hx, hst⟩ := hs v (by simp)
    obtain ⟨c1, e1, b1, o1, f1⟩ := writeWork_spec h hfirst hi hr hx hst ch (h0 v (by simp) i hi)
    rw [List.nodup_cons] at hvs
    have hne : ∀ u ∈ vs, index heads u ≠ some i := fun u hu he => hvs.1 (index_inj hnd hi he ▸ hu)
    obtain ⟨c2, e2, b2, o2, f2⟩ := ih hvs.2 (fun u hu => hv u (by simp [hu])) (fun u hu => hs u (by simp [hu])) c1 (by
      intro u hu j hj k
      have hji : j ≠ i := fun he => hne u hu (he ▸ hj)
      rw [(o1 j hji).1]
      exact h0 u (by simp [hu]) j hj k)
    refine ⟨c2, ?_, b2.trans b1, ?_, ?_⟩
    · simp only [writeWorks, e1, Option.bind_some]; exact e2
    · intro j hj
      have h1 := o2 j fun u hu => hj u (by simp [hu])
      have h2 := o1 j fun he => hj v (by simp) (he ▸ hi)
      exact ⟨h1.1.trans h2.1, h1.2.trans h2.2⟩
    · intro u hu j y hj hy
      rcases List.mem_cons.mp hu with rfl | hu
      · rw [hi, Option.some.injEq] at hj
        subst hj
        rw [hx, Option.some.injEq] at hy
        subst hy
        exact f1.congr (o2 i hne).1 (o2 i hne).2
      · exact f2 u hu j y hj hy

theorem map_node {heads : List Nat} (hnd : heads.Nodup) {l r : List Nat}
    (h : List.Forall₂ (fun v i => index heads v = some i) l r) : r.map (node heads) = l := by
  induction h with
  | nil => rfl
  | cons hab _ ih => rw [List.map_cons, ih, node_of_index hnd hab]

/-- A staffed row meets the requirements and the contractor's borders. -/
theorem Holds.within (h : Sound J m) {v i : Nat} {x : SWork} {ch : Chrom} (hh : Holds J v i x ch)
    (hs : C89.Staffs J.contractors J.spec J.reqs v x.team x.contractor) {k : Nat} (hk : k < m) :
    limit (·.minCount) (J.reqs v) k ≤ ch.amount i k ∧ ch.amount i k ≤ limit (·.maxCount) (J.reqs v) k ∧
      ch.amount i k ≤ J.borders (ch.contractor i) k := by
  obtain ⟨c, hc, hid, -, hm⟩ := hs
  by_cases hin : k ∈ x.team.map (·.name)
  · obtain ⟨w, hw, rfl⟩ := List.mem_map.mp hin
    obtain ⟨r, hr, h1, h2, h3, h4, n, hn, hle⟩ := meets_full hm w hw
    rw [hh.amount w hw, h1, limit_of_mem (h.reqs v).2.1 hr, limit_of_mem (h.reqs v).2.1 hr]
    refine ⟨h3, h4, ?_⟩
    rw [hh.contractor (List.ne_nil_of_mem hw), ← hid]
    obtain ⟨j, hj, hjc⟩ := List.mem_iff_getElem.mp hc
    have hj' : J.contractors[j]? = some c := by rw [List.getElem?_eq_getElem hj, hjc]
    have hcj := h.contractors.ids j c hj'
    rw [hcj]
    have := (h.contractors.pool hj' (h1 ▸ hk : r.kind < m)).2
    rw [hn, Option.some.injEq] at this
    unfold Project.borders
    omega
  · rw [hh.others k hin]
    have hno : ∀ r ∈ J.reqs v, r.kind ≠ k := by
      intro r hr he
      rw [(meets_names hm).1] at hin
      exact hin (he ▸ List.mem_map_of_mem hr)
    rw [limit_absent hno, limit_absent hno]
    exact ⟨Int.le_refl _, Int.le_refl _, h.borders_nonneg hh.known hk⟩

end Sampo.GeneticRun
