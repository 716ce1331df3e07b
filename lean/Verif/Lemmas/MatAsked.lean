import Verif.Lemmas.MatSite
import Verif.Lemmas.SupplyHistory
import Verif.Lemmas.SchedLive
import Verif.Spec.Graph

/-! On a just-in-time timeline materials are asked for after the predecessors have finished. -/

namespace Sampo
namespace MatSite

variable {σ : Type} {E : Env σ} {land : Supply.Land} {needs : Nat → List Supply.Mat}
  {view : σ → Supply.State × List Supply.Served}

/-- Materials of a work have been asked for a moment after its predecessors, which have been placed. -/
structure Asked (E : Env σ) (log : List Supply.Served) (sched : Sched) : Prop where
  known : ∀ s ∈ log, ∀ e ∈ E.edgesTo s.work.id, e.1 ∈ sched.works
  later : ∀ s ∈ log, ∀ e ∈ E.edgesTo s.work.id, ∀ y, sched.get e.1 = some y → y.finish + e.2 ≤ s.deadline

theorem get_cons_ne {v w : Nat} {x : SWork} {sw : Sched} (h : w ≠ v) : Sched.get ((v, x) :: sw) w = sw.get w := by
  have : ¬ v = w := fun he => h he.symm
  simp [Sched.get, this]

theorem get_of_mem {sw : Sched} (hn : sw.works.Nodup) {e : Nat × SWork} (he : e ∈ sw) : sw.get e.1 = some e.2 := by
  induction sw with
  | nil => simp at he
  | cons d sw ih =>
    obtain ⟨v, x⟩ := d
    simp only [Sched.works, List.map_cons, List.nodup_cons] at hn
    rcases List.mem_cons.1 he with rfl | he
    · simp [get_cons]
    · have : v ≠ e.1 := fun hc => hn.1 (hc ▸ List.mem_map_of_mem he)
      rw [get_cons, if_neg this]
      exact ih hn.2 he

theorem asked_cons {log : List Supply.Served} {sw : Sched} (h : Asked E log sw) {v : Nat} (hv : v ∉ sw.works)
    (hp : ∀ e ∈ E.edgesTo v, e.1 ∈ sw.works) {s : Supply.Served} (hs : s.work.id = v) (ht : minStart (E.edgesTo v) sw ≤ s.deadline)
    (x : SWork) : Asked E (s :: log) ((v, x) :: sw) := by
  refine ⟨fun s' hs' e he => ?_, fun s' hs' e he y hy => ?_⟩
  · rcases List.mem_cons.1 hs' with rfl | hs'
    · exact List.mem_cons_of_mem _ (hp e (hs ▸ he))
    · exact List.mem_cons_of_mem _ (h.known s' hs' e he)
  · have hin : e.1 ∈ sw.works := by
      rcases List.mem_cons.1 hs' with rfl | hs'
      · exact hp e (hs ▸ he)
      · exact h.known s' hs' e he
    have hne : e.1 ≠ v := fun hc => hv (by rwa [hc] at hin)
    rw [get_cons_ne hne] at hy
    rcases List.mem_cons.1 hs' with rfl | hs'
    · have := le_minStart (hs ▸ he) hy
      omega
    · exact h.later s' hs' e he y hy

theorem jit_placeChain_asked (hs : Supplied E land needs view) {team : List Worker} {c : Nat} {times : ExecTimes} {vs : List Nat}
    {cur : Int} {s : σ} {sw : Sched} (hk : Asked E (view s).2 sw) (hn : vs.Nodup) (hd : ∀ v ∈ vs, v ∉ sw.works)
    (ht : TopoFrom (fun v => (E.edgesTo v).map (·.1)) sw.works vs) {r : Int × σ × Sched}
    (h : JIT.placeChain E team c times vs cur s sw = some r) : Asked E (view r.2.1).2 r.2.2 := by
  induction vs generalizing cur s sw with
  | nil => simp only [JIT.placeChain, Option.some.injEq] at h; subst h; exact hk
  | cons v vs ih =>
    simp only [JIT.placeChain] at h
    split at h
    · rw [Option.bind_eq_some_iff] at h
      obtain ⟨⟨s', t'⟩, hdl, h⟩ := h
      obtain ⟨out, h1, h2, rfl⟩ := hs.deliver hdl
      rw [List.nodup_cons] at hn
      refine ih (sw := (v, _) :: sw) ?_ hn.2 (fun u hu => ?_) ?_ h
      · rw [h2]
        refine asked_cons hk (hd v (by simp)) (fun e he => ht.1 _ (List.mem_map_of_mem he)) rfl ?_ _
        simp only [entry]
        omega
      · simp only [Sched.works, List.map_cons, List.mem_cons, not_or]
        exact ⟨fun he => hn.1 (he ▸ hu), hd u (by simp [hu])⟩
      · exact JIT.topoFrom_mono (fun x hx => by simp [Sched.works] at hx ⊢; tauto) ht.2
    · simp at h

theorem jit_buildFrom_asked (hs : Supplied E land needs view) {P : Plan (JIT.State σ)} {fuel : Nat} {first : Bool} {order : List Nat}
    {st st' : JIT.State σ} (hest : ∀ v team, 0 ≤ E.estimate v team) (hts : ∀ v ts, P.assignedTimes v = some ts → NonNegTimes ts)
    (hk : Asked E (view st.env).2 st.sched)
    (hn : (order.flatMap E.chain).Nodup) (hd : ∀ v ∈ order.flatMap E.chain, v ∉ st.sched.works)
    (ht : TopoFrom (fun v => (E.edgesTo v).map (·.1)) st.sched.works (order.flatMap E.chain))
    (h : JIT.buildFrom E P fuel first order st = some (some st')) : Asked E (view st'.env).2 st'.sched := by
  induction order generalizing first st with
  | nil => simp only [JIT.buildFrom, Option.some.injEq] at h; subst h; exact hk
  | cons v vs ih =>
    simp only [JIT.buildFrom] at h
    split at h
    · simp at h
    · simp at h
    · rename_i st1 h1
      rw [List.flatMap_cons] at hn hd ht
      rw [List.nodup_append] at hn
      obtain ⟨t1, t2⟩ := JIT.topoFrom_append ht
      have hw : st1.sched.works = (E.chain v).reverse ++ st.sched.works := by
        obtain ⟨team, c, start, fin, _, hrow, _⟩ := JIT.step_spec hest hts h1
        exact hrow.works
      have main : Asked E (view st1.env).2 st1.sched := by
        simp only [JIT.step] at h1
        split at h1
        · simp at h1
        · rename_i c hch
          split at h1
          · simp at h1
          · simp at h1
          · rename_i f hf
            simp only [Option.some.injEq, Option.bind_eq_some_iff, JIT.scheduleAt, Option.map_eq_some_iff] at h1
            obtain ⟨es, hes, r, hr, tl', htl, env', henv, rfl⟩ := h1
            have hes' : view es.1 = view st.env := by
              simp only [JIT.startFor] at hes
              split at hes
              · obtain ⟨z, hz, rfl⟩ := Option.map_eq_some_iff.1 hes
                exact (hs.finish hz :)
              · simp only [Option.some.injEq] at hes; subst hes; rfl
            dsimp only
            rw [hs.occupy henv]
            exact jit_placeChain_asked hs (by rw [hes']; exact hk) hn.1 (fun u hu => hd u (by simp [hu])) t1 hr
      refine ih main hn.2.1 (fun u hu => ?_) (by rw [hw]; exact t2) h
      rw [hw, List.mem_append, List.mem_reverse, not_or]
      exact ⟨fun hc => hn.2.2 u hc u hu rfl, hd u (by simp [hu])⟩

theorem history_mem {st : Supply.State} {log : List Supply.Served} (h : Supply.History land st log) :
    ∀ s ∈ log, ∃ st out, Supply.deliver land st s.work s.deadline = some out ∧ s.records = out.records ∧ s.time = out.time := by
  induction h with
  | fresh => intro s hs; simp at hs
  | @serve st log w deadline out _ _ hd ih =>
    intro s hs
    rcases List.mem_cons.1 hs with rfl | hs
    · exact ⟨_, _, hd, rfl, rfl⟩
    · exact ih s hs

/-- Works on which a work depends, step by step, have been placed before it. -/
theorem placed_before {g : Graph} {ws : List Nat} (h : ∀ l₁ v l₂, ws = l₁ ++ v :: l₂ → ∀ p, g.DependsOn v p → p ∈ l₂) {v w : Nat}
    (hd : Relation.TransGen g.DependsOn v w) : ∀ l₁ l₂, ws = l₁ ++ v :: l₂ → w ∈ l₂ := by
  induction hd with
  | single hd => exact fun l₁ l₂ he => h l₁ v l₂ he _ hd
  | tail _ hd ih =>
    intro l₁ l₂ he
    obtain ⟨a, b, rfl⟩ := List.append_of_mem (ih l₁ l₂ he)
    have := h (l₁ ++ v :: a) _ b (by rw [he]; simp) _ hd
    simp [this]

/-- The works of a platform that are done one after another are asked for in order. -/
theorem in_order {g : Graph} {sched : Sched} {log : List Supply.Served} (hE : ∀ v, E.edgesTo v = (g.edgesTo v).map fun e => (e.start, e.lag))
    (ha : Asked E log sched) (hk : log.map (fun s => (s.work, s.time)) = sched.map fun e => (workOf E.service needs e.1, e.2.start))
    (hn : sched.works.Nodup)
    (ht : ∀ l₁ v l₂, sched.works = l₁ ++ v :: l₂ → ∀ p, g.DependsOn v p → p ∈ l₂) (hlag : ∀ v, ∀ e ∈ g.edgesTo v, 0 ≤ e.lag)
    (htimes : ∀ v x, sched.get v = some x → x.start ≤ x.finish)
    (hprec : ∀ v x, sched.get v = some x → ∀ e ∈ g.edgesTo v, ∃ y, sched.get e.start = some y ∧ y.finish + e.lag ≤ x.start)
    (ho : ∀ v ∈ sched.works, ∀ w ∈ sched.works, v ≠ w → land.platform v = land.platform w →
      Relation.TransGen g.DependsOn v w ∨ Relation.TransGen g.DependsOn w v) : Supply.InOrder land log := by
  have hworks : log.map (·.work.id) = sched.works := by
    have := congrArg (List.map fun p : Supply.Work × Int => p.1.id) hk
    simpa [workOf, Sched.works, Function.comp_def] using this
  have hstart : ∀ {v w}, Relation.ReflTransGen g.DependsOn v w → ∀ x, sched.get v = some x → ∃ y, sched.get w = some y ∧
      y.start ≤ x.start := by
    intro v w hd
    induction hd with
    | refl => exact fun x hx => ⟨x, hx, Int.le_refl _⟩
    | tail _ hd ih =>
      intro x hx
      obtain ⟨y, hy, h1⟩ := ih x hx
      obtain ⟨e, he, rfl, -⟩ := hd
      obtain ⟨z, hz, h2⟩ := hprec _ y hy e he
      have := hlag _ e he
      have := htimes _ z hz
      exact ⟨z, hz, by omega⟩
  have hget : ∀ s ∈ log, ∃ x, sched.get s.work.id = some x ∧ s.time = x.start := by
    intro s hs
    have : (s.work, s.time) ∈ log.map fun s => (s.work, s.time) := List.mem_map_of_mem (f := fun s : Supply.Served => (s.work, s.time)) hs
    rw [hk, List.mem_map] at this
    obtain ⟨e, he, h⟩ := this
    simp only [Prod.mk.injEq] at h
    refine ⟨e.2, ?_, h.2.symm⟩
    rw [← h.1]
    exact get_of_mem hn he
  unfold Supply.InOrder
  rw [List.pairwise_iff_forall_sublist]
  intro later earlier hsub hp
  have hmem := fun s (h : s ∈ [later, earlier]) => hsub.subset h
  have hw := hsub.map (·.work.id)
  rw [hworks] at hw
  simp only [List.map_cons, List.map_nil] at hw
  have hne : later.work.id ≠ earlier.work.id := by
    have := hw.nodup hn
    simpa using this
  have hmw : ∀ s ∈ log, s.work.id ∈ sched.works := fun s hs => hworks ▸ List.mem_map_of_mem (f := fun s : Supply.Served => s.work.id) hs
  have hl := hmem later (by simp)
  have he := hmem earlier (by simp)
  obtain ⟨l₁, l₂, hsplit, hin⟩ : ∃ l₁ l₂, sched.works = l₁ ++ later.work.id :: l₂ ∧ earlier.work.id ∈ l₂ := by
    rw [List.cons_sublist_iff] at hw
    obtain ⟨r₁, r₂, h1, h2, h3⟩ := hw
    obtain ⟨a, b, rfl⟩ := List.append_of_mem h2
    exact ⟨a, b ++ r₂, by simp [h1], List.mem_append_right _ (List.singleton_sublist.1 h3)⟩
  rcases ho _ (hmw later hl) _ (hmw earlier he) hne hp.symm with h | h
  · obtain ⟨z, ⟨e, hee, rfl, -⟩, hz⟩ := Relation.TransGen.head'_iff.1 h
    obtain ⟨x, hx, htime⟩ := hget earlier he
    obtain ⟨xl, hxl, -⟩ := hget later hl
    obtain ⟨y, hy, -⟩ := hprec _ xl hxl e hee
    obtain ⟨y', hy', h1⟩ := hstart hz y hy
    rw [hx] at hy'
    cases hy'
    have h2 := ha.later later hl (e.start, e.lag) (by rw [hE]; exact List.mem_map_of_mem (f := fun e : Edge => (e.start, e.lag)) hee) y hy
    have := htimes _ y hy
    have := hlag _ e hee
    dsimp only at h2
    omega
  · obtain ⟨a, b, rfl⟩ := List.append_of_mem hin
    have := placed_before ht h (l₁ ++ later.work.id :: a) b (by rw [hsplit]; simp)
    exfalso
    rw [hsplit] at hn
    simp only [List.nodup_append, List.nodup_cons, List.mem_append, List.mem_cons] at hn
    exact hn.2.1.1 (.inr (.inr this))

/-- Who needs one material gets all or nothing. -/
theorem all_or_nothing {st : Supply.State} {log : List Supply.Served} (h : Supply.History land st log)
    (hn : ∀ s ∈ log, s.work.needs.length ≤ 1) : Supply.AllOrNothing log := by
  induction h with
  | fresh => intro s hs; simp at hs
  | @serve st log w deadline out _ _ hd ih =>
    intro s hs
    rcases List.mem_cons.1 hs with rfl | hs
    · rcases Supply.deliver_cases hd with ⟨_, h2, _, _⟩ | ⟨req, hne, hreq, o, _, _, _, _, _, hrec, _, _⟩
      · exact .inl h2
      · refine .inr ?_
        have hsub := Supply.request_sublist hreq
        have hlen := hn _ (List.mem_cons_self ..)
        dsimp only at hlen ⊢
        rw [hrec]
        have he : (Supply.recordsOf req o).map (·.name) = req.map (·.name) := by simp [Supply.recordsOf]
        rw [he]
        refine hsub.eq_of_length_le ?_
        have : 0 < req.length := List.length_pos_iff.2 hne
        simp
        omega
    · exact ih (fun s hs => hn s (List.mem_cons_of_mem _ hs)) s hs

end MatSite
end Sampo
