import Verif.Spec.Prompt
import Verif.Lemmas.DecodeSite
import Verif.Props.C86_MaterialPromise

/-! Materials of the works that a search has placed. -/

namespace Sampo

namespace Supply

theorem Prompt.more {land : Land} {log : List Served} {v : Nat} (h : Prompt land log v) (more : List Served) :
    Prompt land (more ++ log) v := by
  obtain ⟨later, s, earlier, rfl, h⟩ := h
  exact ⟨more ++ later, s, earlier, by simp, h⟩

/-- A work without needs gets nothing, at once. -/
theorem idle_prompt {land : Land} {st : State} {w : Work} {t : Int} {out : Outcome} (hw : w.needs = [] ∨ w.service = true)
    (h : deliver land st w t = some out) : out.time = t := by
  rcases deliver_platform h with ⟨_, _, _, h⟩ | ⟨_, _, _, h, _⟩ | ⟨req, hsv, hr, hreq, _⟩
  · exact h
  · exact h
  · rcases hw with hw | hw
    · rw [hw] at hreq; simp [request] at hreq; exact absurd hreq hr
    · rw [hsv] at hw; simp at hw

/-- A moment that is not put off is kept. -/
theorem found_prompt {land : Land} {st : State} {log : List Served} (hist : History land st log) {w : Work} {t : Int} {out : Outcome}
    (hf : (findMin land st w t).getD t ≤ t) (h : deliver land st w t = some out) : out.time = t ∨ findMin land st w t = none := by
  cases hm : findMin land st w t with
  | none => exact .inr rfl
  | some u =>
    left
    rw [hm] at hf
    have := C86.found_not_earlier hm
    obtain rfl : u = t := by simp at hf; omega
    exact C86.delivered_when_promised ((C86.can_iff_found hist).2 hm) h

end Supply

namespace MatSite

variable {σ : Type} {E : Env σ} {land : Supply.Land} {needs : Nat → List Supply.Mat} {view : σ → Supply.State × List Supply.Served}

theorem prompt_serve {st : Supply.State} {log more : List Supply.Served} (hist : Supply.History land st log) {service : Nat → Bool}
    {v : Nat} {t : Int} {out : Supply.Outcome} (h : out.time = t ∨ Supply.findMin land st (workOf service needs v) t = none) :
    Supply.Prompt land (more ++ entry (workOf service needs v) t out :: log) v :=
  ⟨more, _, log, rfl, rfl, h.imp id fun h => ⟨st, hist, h⟩⟩

theorem jit_placeChain_more (hs : Supplied E land needs view) {team : List Worker} {c : Nat} {times : ExecTimes} {vs : List Nat}
    {cur : Int} {s : σ} {sw : Sched} {r : Int × σ × Sched} (h : JIT.placeChain E team c times vs cur s sw = some r) :
    ∃ more, (view r.2.1).2 = more ++ (view s).2 := by
  induction vs generalizing cur s sw with
  | nil => simp only [JIT.placeChain, Option.some.injEq] at h; subst h; exact ⟨[], rfl⟩
  | cons v vs ih =>
    simp only [JIT.placeChain] at h
    split at h
    · rw [Option.bind_eq_some_iff] at h
      obtain ⟨⟨s', t'⟩, hd, h⟩ := h
      obtain ⟨out, -, h2, -⟩ := hs.deliver hd
      obtain ⟨more, h3⟩ := ih h
      rw [h3, show view (s', t').1 = _ from h2, List.append_cons]
      exact ⟨_, rfl⟩
    · simp at h

theorem momentum_placeChain_more (hs : Supplied E land needs view) {team : List Worker} {c : Nat} {times : ExecTimes} {vs : List Nat}
    {cur : Int} {s : σ} {sw : Sched} {r : Int × σ × Sched} (h : Momentum.placeChain E team c times vs cur s sw = some r) :
    ∃ more, (view r.2.1).2 = more ++ (view s).2 := by
  induction vs generalizing cur s sw with
  | nil => simp only [Momentum.placeChain, Option.some.injEq] at h; subst h; exact ⟨[], rfl⟩
  | cons v vs ih =>
    simp only [Momentum.placeChain] at h
    rw [Option.bind_eq_some_iff] at h
    obtain ⟨⟨s', t'⟩, hd, h⟩ := h
    obtain ⟨out, -, h2, -⟩ := hs.deliver hd
    obtain ⟨more, h3⟩ := ih h
    rw [h3, show view (s', t').1 = _ from h2, List.append_cons]
    exact ⟨_, rfl⟩

/-- The search ends where the materials do not put it off. -/
theorem momentum_findLoop_mat {tl : Momentum.Timeline} {env : σ} {node : Nat} {team : List Worker} {c : Nat} {ind : Bool} {exec inf : Int}
    {fuelIn fuel : Nat} {cur r : Int} (h : Momentum.findLoop E tl env node team c ind exec inf fuelIn fuel cur = some (some r)) :
    E.matTime env node r ≤ r := by
  induction fuel generalizing cur with
  | zero => simp [Momentum.findLoop] at h
  | succ n ih =>
    simp only [Momentum.findLoop] at h
    split at h
    · simp at h
    · simp at h
    · split at h
      · exact ih h
      · split at h
        · exact ih h
        · simp only [Option.some.injEq] at h; subst h; omega

/-- The materials of a work are asked for as the site does. -/
structure Asks (E : Env σ) (land : Supply.Land) (needs : Nat → List Supply.Mat) (view : σ → Supply.State × List Supply.Served) : Prop where
  ask : ∀ s v t, E.matTime s v t = (Supply.findMin land (view s).1 (workOf E.service needs v) t).getD t
  finish : ∀ {s r}, E.finishZones s = some r → r.2 ≤ 0

theorem momentum_step_prompt (hs : Supplied E land needs view) (ha : Asks E land needs view) {P : Plan (Momentum.State σ)} {inf : Int}
    {fuelIn fuel : Nat} {first last : Bool} {st st' : Momentum.State σ} {v : Nat} {rest : List Nat} (hv : E.chain v = v :: rest)
    (hlag : ∀ ts p, P.assignedTimes v = some ts → ts v = some p → p.1 = 0) (hP : 0 ≤ P.parentTime) (hinf : P.parentTime ≤ inf)
    (hneed : (needs v = [] ∨ E.service v = true) ∨ first = false ∧ ∀ c, P.choose st v = some c → c.1 ≠ [])
    (hist : Supply.History land (view st.env).1 (view st.env).2)
    (h : Momentum.step E P inf fuelIn fuel first last st v = some (some st')) :
    (∃ more, (view st'.env).2 = more ++ (view st.env).2) ∧ Supply.Prompt land (view st'.env).2 v := by
  simp only [Momentum.step] at h
  split at h
  · simp at h
  · rename_i c hch
    split at h
    · simp at h
    · simp at h
    · rename_i f hf
      split at h
      · simp at h
      · rename_i es hes
        simp only [Momentum.schedule, Option.map_eq_some_iff] at h
        obtain ⟨o, ho, h⟩ := h
        simp only [Option.bind_eq_some_iff, Momentum.scheduleAt, Option.map_eq_some_iff] at h
        obtain ⟨g, rfl, r, hr, tl', htl, env', henv, rfl⟩ := h
        have hview : view es.1 = view st.env := by
          simp only [Momentum.startFor] at hes
          split at hes
          · obtain ⟨z, hz, rfl⟩ := Option.map_eq_some_iff.1 hes
            exact (hs.finish hz :)
          · simp only [Option.some.injEq] at hes; subst hes; rfl
        dsimp only
        rw [hs.occupy henv]
        refine ⟨by obtain ⟨more, hm⟩ := momentum_placeChain_more hs hr; exact ⟨more, by rw [hm, hview]⟩, ?_⟩
        have hl0 : (((P.assignedTimes v).getD (Momentum.timesOf g.times) v).getD (0, E.estimate v c.1)).1 = 0 := by
          cases hat : P.assignedTimes v with
          | none =>
            rw [Option.getD_none, Momentum.find_times ho, hv]
            simp only [Momentum.execTimes, Momentum.timesOf, List.find?_cons, decide_true, Option.map_some, Option.getD_some]
            split <;> omega
          | some ts =>
            rw [Option.getD_some]
            cases hp : ts v with
            | none => rfl
            | some p => exact hlag ts p hat hp
        rw [hv] at hr
        simp only [Momentum.placeChain] at hr
        rw [Option.bind_eq_some_iff] at hr
        obtain ⟨⟨s', t'⟩, hd, hr⟩ := hr
        obtain ⟨out, h1, h2, -⟩ := hs.deliver hd
        obtain ⟨more, hm⟩ := momentum_placeChain_more hs hr
        dsimp only at hm
        rw [hm, h2, hview]
        rw [hview] at h1
        refine prompt_serve hist ?_
        rcases hneed with hn | ⟨rfl, hteam⟩
        · exact .inl (Supply.idle_prompt hn h1)
        · rw [hl0, Int.add_zero] at h1 ⊢
          refine Supply.found_prompt hist ?_ h1
          have key : E.matTime st.env v f.start ≤ f.start ∧ 0 ≤ f.start := by
            cases hc : c.1 with
            | nil => exact absurd hc (hteam c hch)
            | cons w ws =>
              rw [hc] at hf
              simp only [Momentum.find, Momentum.findStart, Option.map_eq_some_iff] at hf
              obtain ⟨o, ho, hf⟩ := hf
              obtain ⟨t, rfl, rfl⟩ := hf
              split at ho
              · simp at ho
              · simp at ho
              · rename_i t' ht'
                simp only [Option.some.injEq, Option.map_eq_some_iff] at ho
                obtain ⟨_, -, rfl⟩ := ho
                have hpt : P.parentTime ≤ Momentum.parentTimeOf E st.sched none P.parentTime v := by
                  unfold Momentum.parentTimeOf; omega
                have := Momentum.findLoop_ge hpt hinf ht'
                exact ⟨momentum_findLoop_mat ht', by dsimp only; omega⟩
          have hes2 : es.2 = f.start := by
            simp only [Momentum.startFor] at hes
            split at hes
            · obtain ⟨z, hz, rfl⟩ := Option.map_eq_some_iff.1 hes
              have := ha.finish hz
              simp only [Bool.false_eq_true, if_false]
              omega
            · simp only [Option.some.injEq] at hes; subst hes; rfl
          have hg : g.start = f.start := by
            cases hc : c.1 with
            | nil => exact absurd hc (hteam c hch)
            | cons w ws =>
              rw [hc] at ho
              simp only [Momentum.find, Momentum.findStart, Option.map_eq_some_iff, Option.some.injEq] at ho
              obtain ⟨o, rfl, ho⟩ := ho
              obtain ⟨t, ht, rfl⟩ := ho
              rw [Option.map_eq_some_iff] at ht
              obtain ⟨_, -, rfl⟩ := ht
              exact hes2
          rw [hg, ← ha.ask]
          exact key.1

theorem momentum_buildFrom_prompt (hs : Supplied E land needs view) (ha : Asks E land needs view)
    (hl : ∀ {s v t s' t'}, E.deliver s v t = some (s', t') → t ≤ t') {P : Plan (Momentum.State σ)} {inf : Int} {fuelIn fuel : Nat}
    (hest : ∀ v team, 0 ≤ E.estimate v team) (hts : ∀ v ts, P.assignedTimes v = some ts → NonNegTimes ts)
    (hlag : ∀ v ts p, P.assignedTimes v = some ts → ts v = some p → p.1 = 0) (hP : 0 ≤ P.parentTime) (hinf : P.parentTime ≤ inf)
    {first : Bool} {order : List Nat} (hv : ∀ v ∈ order, ∃ rest, E.chain v = v :: rest)
    (hfirst : first = true → ∀ v, order.head? = some v → needs v = [])
    (hteam : ∀ v ∈ order, needs v ≠ [] → E.service v = false → ∀ st c, P.choose st v = some c → c.1 ≠ [])
    {st st' : Momentum.State σ} (hk : Kept E land needs (view st.env) st.sched)
    (h : Momentum.buildFrom E P inf fuelIn fuel first order st = some (some st')) :
    (∃ more, (view st'.env).2 = more ++ (view st.env).2) ∧ ∀ v ∈ order, Supply.Prompt land (view st'.env).2 v := by
  induction order generalizing first st with
  | nil => simp only [Momentum.buildFrom, Option.some.injEq] at h; subst h; exact ⟨⟨[], rfl⟩, by simp⟩
  | cons v vs ih =>
    simp only [Momentum.buildFrom] at h
    split at h
    · simp at h
    · simp at h
    · rename_i st1 h1
      obtain ⟨rest, hr⟩ := hv v (by simp)
      have hneed : (needs v = [] ∨ E.service v = true) ∨ first = false ∧ ∀ c, P.choose st v = some c → c.1 ≠ [] := by
        by_cases hn : needs v = []
        · exact .inl (.inl hn)
        · cases hb : E.service v with
          | true => exact .inl (.inr rfl)
          | false =>
            refine .inr ⟨?_, hteam v (by simp) hn hb st⟩
            cases first with
            | false => rfl
            | true => exact absurd (hfirst rfl v rfl) hn
      obtain ⟨⟨m1, a1⟩, a2⟩ := momentum_step_prompt hs ha hr (hlag v) hP hinf hneed hk.1 h1
      obtain ⟨⟨m2, b1⟩, b2⟩ := ih (fun u hu => hv u (by simp [hu])) (by simp) (fun u hu => hteam u (by simp [hu]))
        (momentum_step_kept hs hl hest hts hP hinf hk h1) h
      refine ⟨⟨m2 ++ m1, by rw [b1, a1]; simp⟩, fun u hu => ?_⟩
      rcases List.mem_cons.1 hu with rfl | hu
      · rw [b1]; exact a2.more m2
      · exact b2 u hu

theorem asks {τ : Type} (base : Env τ) (cfg : Zone.Config) (reqs : Nat → List Zone.Req) :
    Asks (ZoneSite.site (site base land needs) cfg reqs) land needs fun s => (s.mat.supply, s.mat.log) where
  ask _ _ _ := rfl
  finish h := by
    obtain ⟨y, hy, rfl⟩ := Option.map_eq_some_iff.1 h
    have := ZoneSite.finish_zero hy
    dsimp only
    omega

end MatSite

namespace Decode

open MatSite

variable {σ : Type} {D : Input σ} {E : Env σ} {land : Supply.Land} {needs : Nat → List Supply.Mat}
  {view : σ → Supply.State × List Supply.Served}

theorem chainTimes_lag {chain : List Nat} {t : Int} {v : Nat} {e : Int} : ((chainTimes D chain t v).getD (0, e)).1 = 0 := by
  unfold chainTimes
  cases (chain.zip (Assigned.execTimes D.share (chain.map D.volume) t)).lookup v <;> rfl

theorem place_prompt (hs : Supplied E land needs view)
    (hmat : ∀ s v t, D.matOk s v t = true → Supply.canSchedule land (view s).1 (workOf E.service needs v) t = some true)
    (hfin : ∀ {s r}, E.finishZones s = some r → r.2 ≤ 0) {st : JIT.State σ} {it : Item} {t : Int} {r : JIT.State σ × Int}
    {rest : List Nat} (hv : E.chain it.node = it.node :: rest) (hind : D.independent it.node = false)
    (h0 : it.idx = 0 → needs it.node = []) (hist : Supply.History land (view st.env).1 (view st.env).2)
    (hok : canNow D E st it t = some true) (hp : place D E st it t = some r) :
    (∃ more, (view r.1.env).2 = more ++ (view st.env).2) ∧ Supply.Prompt land (view r.1.env).2 it.node := by
  obtain ⟨team, es, x, hes, -, hx, e1, henv⟩ := place_parts hp
  have ht := canNow_nonneg hok hind
  obtain ⟨-, hmin, -, hm, -⟩ := canNow_parents hok hind
  have main : view es.1 = view st.env ∧ (es.2 = t ∨ it.idx = 0) := by
    unfold startOf at hes
    split at hes
    · obtain ⟨z, hz, rfl⟩ := Option.map_eq_some_iff.1 hes
      have := hfin hz
      refine ⟨(hs.finish hz :), .inl ?_⟩
      dsimp only
      omega
    · cases hes
      refine ⟨rfl, ?_⟩
      dsimp only
      split <;> simp_all
  rw [hs.occupy henv]
  refine ⟨by obtain ⟨more, h⟩ := jit_placeChain_more hs hx; exact ⟨more, by rw [h, main.1]⟩, ?_⟩
  rw [hv] at hx
  simp only [JIT.placeChain] at hx
  split at hx
  · rw [Option.bind_eq_some_iff] at hx
    obtain ⟨⟨s', t'⟩, hd, hx⟩ := hx
    obtain ⟨out, h1, h2, -⟩ := hs.deliver hd
    obtain ⟨more, h3⟩ := jit_placeChain_more hs hx
    dsimp only at h3
    rw [h3, h2, main.1]
    rw [main.1] at h1
    refine prompt_serve hist (.inl ?_)
    rcases main.2 with h | h
    · have he : max (es.2 + (((chainTimes D (it.node :: rest) it.exec) it.node).getD (0, E.estimate it.node team)).1)
          (minStart (E.edgesTo it.node) st.sched) = t := by
        rw [chainTimes_lag]; omega
      rw [he] at h1 ⊢
      exact C86.delivered_when_promised (hmat _ _ _ hm) h1
    · exact Supply.idle_prompt (.inl (h0 h)) h1
  · cases hx

theorem parallel_prompt (hs : Supplied E land needs view)
    (hmat : ∀ s v t, D.matOk s v t = true → Supply.canSchedule land (view s).1 (workOf E.service needs v) t = some true)
    (hfin : ∀ {s r}, E.finishZones s = some r → r.2 ≤ 0) (hl : ∀ {s v t s' t'}, E.deliver s v t = some (s', t') → t ≤ t')
    (hest : ∀ v team, 0 ≤ E.estimate v team) (hP : 0 ≤ D.parentTime) (hind : ∀ v, D.independent v = false)
    (hv : ∀ i ∈ D.order, ∃ rest, E.chain (D.node i) = D.node i :: rest)
    (hts : ∀ idx, ∀ i ∈ D.order, ∀ it, decode D E idx i = some it → GoodTimes D E it)
    (h0 : ∀ i, D.order[0]? = some i → needs (D.node i) = []) {inf : Int} {fuel : Nat} {env : σ}
    (hk : Kept E land needs (view env) []) {L : Loop σ}
    (h : parallel D E inf env fuel = some (some L)) :
    ∀ i ∈ D.order, D.node i ∈ L.items.map (·.node) ∨ Supply.Prompt land (view L.st.env).2 (D.node i) := by
  have := parallel_inv (Inv := fun l st => Kept E land needs (view st.env) st.sched ∧
    (∀ i ∈ D.order, D.node i ∈ l.map (·.node) ∨ Supply.Prompt land (view st.env).2 (D.node i)) ∧
    ∀ it ∈ l, GoodTimes D E it ∧ (it.idx = 0 → needs it.node = []) ∧ ∃ rest, E.chain it.node = it.node :: rest) ?_ ?_ ?_ h
  · exact this.2.1
  · rintro l l' st hp ⟨h1, h2, h3⟩
    exact ⟨h1, fun i hi => (h2 i hi).imp (fun h => (hp.map _).mem_iff.1 h) id, fun it hit => h3 it (hp.mem_iff.mpr hit)⟩
  · rintro t it l st r hok hp ⟨h1, h2, h3⟩
    obtain ⟨g1, g2, rest, g3⟩ := h3 it (by simp)
    obtain ⟨⟨more, hm⟩, hpr⟩ := place_prompt hs hmat hfin g3 (hind _) g2 h1.1 hok hp
    refine ⟨?_, fun i hi => ?_, fun x hx => h3 x (by simp [hx])⟩
    · obtain ⟨team, es, x, hes, -, hx, e1, henv⟩ := place_parts hp
      have ht := canNow_nonneg hok (hind _)
      have hes' : view es.1 = view st.env ∧ 0 ≤ es.2 := by
        unfold startOf at hes
        split at hes
        · obtain ⟨z, hz, rfl⟩ := Option.map_eq_some_iff.1 hes
          exact ⟨(hs.finish hz :), by dsimp only; omega⟩
        · cases hes
          refine ⟨rfl, ?_⟩
          dsimp only
          split <;> omega
      rw [e1, hs.occupy henv]
      exact jit_placeChain_kept hs hl (fun v => hest v _) g1 hes'.2 (by rw [hes'.1]; exact h1) hx
    · rcases h2 i hi with h | h
      · rw [List.map_cons, List.mem_cons] at h
        rcases h with h | h
        · rw [h]; exact .inr hpr
        · exact .inl h
      · rw [hm]; exact .inr (h.more more)
  · intro items hi
    obtain ⟨h1, h2⟩ := decodeAll_mem hi
    refine ⟨hk, fun i hi => .inl (by rw [h1]; exact List.mem_map_of_mem hi), fun it hit => ?_⟩
    obtain ⟨j, i, h3, h4⟩ := h2 it hit
    have hmem := List.mem_of_getElem? h3
    refine ⟨hts _ i hmem it h4, ?_, ?_⟩
    · intro hidx
      simp only [decode, Option.map_eq_some_iff] at h4
      obtain ⟨team, -, rfl⟩ := h4
      dsimp only at hidx ⊢
      have : j = 0 := by omega
      subst this
      exact h0 i h3
    · simp only [decode, Option.map_eq_some_iff] at h4
      obtain ⟨team, -, rfl⟩ := h4
      exact hv i hmem

end Decode

end Sampo
