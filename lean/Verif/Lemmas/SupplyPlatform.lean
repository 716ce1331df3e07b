import Verif.Lemmas.SupplyLive
import Mathlib.Data.List.Nodup

/-! Lemmas about the storage of platforms. -/

namespace Sampo.Supply

open Momentum (Event lastAt available add keyLe)

/-- The list starts with the initial event. -/
def Headed (c : Int) (s : List Event) : Prop := ∃ es, s = ⟨-1, .initial, 0, c⟩ :: es

/-- The lists of a platform timeline exist. -/
def Known (l : Land) (p : Platforms) : Prop :=
  ∀ pl m c, pl ∈ l.platforms → l.capacity pl m = some c → ∃ s, p.states (pl, m) = some s ∧ Headed c s

theorem Headed.lastAt {c : Int} {s : List Event} (h : Headed c s) {t : Int} (ht : 0 ≤ t) : ∃ e, lastAt s t = some e := by
  obtain ⟨es, rfl⟩ := h
  unfold Momentum.lastAt
  have : Event.key ⟨-1, .initial, 0, c⟩ ≤ t := by simp [Event.key]; omega
  simp only [this, if_true]
  cases Momentum.lastAt es t <;> simp

theorem Headed.add {c : Int} {s : List Event} (h : Headed c s) {i t n : Int} (ht : 0 ≤ t) :
    Headed c (add ⟨i, .start, t, n⟩ s) := by
  obtain ⟨es, rfl⟩ := h
  refine ⟨Momentum.add ⟨i, .start, t, n⟩ es, ?_⟩
  have : keyLe ⟨-1, .initial, 0, c⟩ ⟨i, .start, t, n⟩ = true := Momentum.keyLe_of_lt (by simp [Event.key]; omega)
  simp [Momentum.add, this]

theorem known_init (l : Land) : Known l (Platforms.init l) := by
  intro pl m c hpl hc
  exact ⟨fresh c, by simp [Platforms.init, hpl, hc], [], rfl⟩

theorem takeAll_exists {l : Land} {platform : Nat} (hpl : platform ∈ l.platforms) {start : Int} (h0 : 0 ≤ start) :
    ∀ {mats : List Mat} {p : Platforms}, Known l p → (∀ m ∈ mats, ∃ c, l.capacity platform m.name = some c) →
      ∃ p', p.takeAll platform start mats = some p' := by
  intro mats
  induction mats with
  | nil => intro p _ _; exact ⟨p, rfl⟩
  | cons m ms ih =>
    intro p hk hm
    obtain ⟨c, hc⟩ := hm m (by simp)
    obtain ⟨s, hs, hh⟩ := hk platform m.name c hpl hc
    obtain ⟨e, he⟩ := hh.lastAt h0
    have ht : p.take platform m.name m.count start = some ⟨Function.update p.states (platform, m.name)
        (some (add ⟨p.taskIndex, .start, start, e.count - m.count⟩ s)), p.taskIndex + 1⟩ := by
      simp [Platforms.take, hs, he]
    obtain ⟨p', hp'⟩ := ih (p := ⟨Function.update p.states (platform, m.name)
        (some (add ⟨p.taskIndex, .start, start, e.count - m.count⟩ s)), p.taskIndex + 1⟩) (by
      intro pl n c' h1 h2
      by_cases hkey : (pl, n) = (platform, m.name)
      · refine ⟨add ⟨p.taskIndex, .start, start, e.count - m.count⟩ s, by dsimp only; rw [hkey]; simp, ?_⟩
        simp only [Prod.mk.injEq] at hkey
        rw [hkey.1, hkey.2, hc] at h2; cases h2
        exact hh.add h0
      · obtain ⟨s', hs', hh'⟩ := hk pl n c' h1 h2
        exact ⟨s', by dsimp only; rw [Function.update_of_ne hkey]; exact hs', hh'⟩) (fun x hx => hm x (by simp [hx]))
    exact ⟨p', by simp [Platforms.takeAll, ht, hp']⟩

/-- The effect of `takeAll` on every list. -/
theorem takeAll_state {platform : Nat} {start : Int} : ∀ {mats : List Mat} {p p' : Platforms},
    (mats.map (·.name)).Nodup → p.takeAll platform start mats = some p' →
    p.taskIndex ≤ p'.taskIndex ∧
    (∀ pl m, pl ≠ platform ∨ m ∉ mats.map (·.name) → p'.states (pl, m) = p.states (pl, m)) ∧
    ∀ m ∈ mats, ∃ s e i, p.states (platform, m.name) = some s ∧ lastAt s start = some e ∧ p.taskIndex ≤ i ∧
      i < p'.taskIndex ∧ p'.states (platform, m.name) = some (add ⟨i, .start, start, e.count - m.count⟩ s) := by
  intro mats
  induction mats with
  | nil =>
    intro p p' _ h
    simp [Platforms.takeAll] at h; subst h
    exact ⟨le_refl _, fun _ _ _ => rfl, by simp⟩
  | cons m ms ih =>
    intro p p' hn h
    unfold Platforms.takeAll at h
    simp only [Option.bind_eq_some_iff] at h
    obtain ⟨p1, h1, h2⟩ := h
    unfold Platforms.take at h1
    simp only [Option.bind_eq_some_iff, Option.map_eq_some_iff] at h1
    obtain ⟨s, hs, e, he, rfl⟩ := h1
    rw [List.map_cons, List.nodup_cons] at hn
    obtain ⟨g1, g2, g3⟩ := ih hn.2 h2
    dsimp only at g1
    refine ⟨by omega, ?_, ?_⟩
    · intro pl n hor
      have hne : (pl, n) ≠ (platform, m.name) := by
        intro heq
        simp only [Prod.mk.injEq] at heq
        rcases hor with hor | hor
        · exact hor heq.1
        · exact hor (by simp [heq.2])
      rw [g2 pl n (by
        rcases hor with hor | hor
        · exact Or.inl hor
        · right; intro hmem; exact hor (by rw [List.map_cons]; exact List.mem_cons_of_mem _ hmem))]
      dsimp only; rw [Function.update_of_ne hne]
    · intro x hx
      rcases List.mem_cons.mp hx with rfl | hx
      · refine ⟨s, e, p.taskIndex, hs, he, le_refl _, by omega, ?_⟩
        rw [g2 platform x.name (Or.inr hn.1)]
        simp
      · obtain ⟨s', e', i, k1, k2, k3, k4, k5⟩ := g3 x hx
        have hne : (platform, x.name) ≠ (platform, m.name) := by
          intro heq
          simp only [Prod.mk.injEq, true_and] at heq
          exact hn.1 (by rw [← heq]; exact List.mem_map_of_mem hx)
        dsimp only at k1 k3
        rw [Function.update_of_ne hne] at k1
        exact ⟨s', e', i, k1, k2, by omega, k4, k5⟩

theorem takeAll_known {l : Land} {platform : Nat} {start : Int} (h0 : 0 ≤ start) {mats : List Mat} {p p' : Platforms}
    (hn : (mats.map (·.name)).Nodup) (hk : Known l p) (h : p.takeAll platform start mats = some p') : Known l p' := by
  obtain ⟨_, h2, h3⟩ := takeAll_state hn h
  intro pl m c hpl hc
  obtain ⟨s, hs, hh⟩ := hk pl m c hpl hc
  by_cases hkey : pl ≠ platform ∨ m ∉ mats.map (·.name)
  · exact ⟨s, by rw [h2 pl m hkey]; exact hs, hh⟩
  · push Not at hkey
    obtain ⟨x, hx, rfl⟩ := List.mem_map.mp hkey.2
    obtain ⟨s', e, i, k1, _, _, _, k5⟩ := h3 x hx
    rw [hkey.1] at hs ⊢
    rw [hs] at k1; cases k1
    exact ⟨_, k5, hh.add h0⟩

/-! ## What the requests and uses are -/

theorem platformUse_spec {needs : List Mat} : ∀ {mats use : List Mat}, platformUse needs mats = some use →
    use.map (·.name) = mats.map (·.name) ∧
    ∀ u ∈ use, ∃ m ∈ mats, ∃ q ∈ needs, m.name = u.name ∧ q.name = u.name ∧ u.count = q.count - m.count := by
  intro mats
  unfold platformUse
  induction mats with
  | nil => intro use h; simp at h; subst h; simp
  | cons m ms ih =>
    intro use h
    rw [List.mapM_cons] at h
    simp only [Option.bind_eq_bind, Option.pure_def, Option.bind_eq_some_iff, Option.map_eq_some_iff, Option.some.injEq] at h
    obtain ⟨u, ⟨q, hq, rfl⟩, us, hus, rfl⟩ := h
    obtain ⟨h1, h2⟩ := ih hus
    refine ⟨by simp [h1], ?_⟩
    intro x hx
    rcases List.mem_cons.mp hx with rfl | hx
    · have hqn := List.find?_some hq
      simp only [decide_eq_true_eq] at hqn
      exact ⟨m, by simp, q, List.mem_reverse.mp (List.mem_of_find?_eq_some hq), rfl, hqn, rfl⟩
    · obtain ⟨m', hm', h3⟩ := h2 x hx
      exact ⟨m', by simp [hm'], h3⟩

theorem platformUse_exists {needs : List Mat} : ∀ {mats : List Mat}, (∀ m ∈ mats, ∃ q ∈ needs, q.name = m.name) →
    ∃ use, platformUse needs mats = some use := by
  intro mats
  unfold platformUse
  induction mats with
  | nil => intro _; exact ⟨[], rfl⟩
  | cons m ms ih =>
    intro h
    obtain ⟨use, hu⟩ := ih (fun x hx => h x (by simp [hx]))
    obtain ⟨q, hq, hqm⟩ := h m (by simp)
    cases hf : needs.reverse.find? fun q => q.name = m.name with
    | none =>
      have := List.find?_eq_none.mp hf q (List.mem_reverse.mpr hq)
      simp at this; exact absurd hqm this
    | some z =>
      exact ⟨⟨m.name, z.count - m.count⟩ :: use, by rw [List.mapM_cons]; simp [hf, hu]⟩

theorem request_exists {l : Land} {p : Platforms} (hk : Known l p) {platform : Nat} (hpl : platform ∈ l.platforms) {time : Int}
    (h0 : 0 ≤ time) : ∀ {needs : List Mat}, (∀ m ∈ needs, ∃ c, l.capacity platform m.name = some c) →
      ∃ req, request l p platform time needs = some req := by
  intro needs
  induction needs with
  | nil => intro _; exact ⟨[], rfl⟩
  | cons m ms ih =>
    intro h
    obtain ⟨c, hc⟩ := h m (by simp)
    obtain ⟨s, hs, hh⟩ := hk platform m.name c hpl hc
    obtain ⟨e, he⟩ := hh.lastAt h0
    obtain ⟨req, hr⟩ := ih (fun x hx => h x (by simp [hx]))
    by_cases hlt : e.count < m.count
    · exact ⟨⟨m.name, c - e.count⟩ :: req, by simp [request, hs, he, hr, hlt, hc]⟩
    · exact ⟨req, by simp [request, hs, he, hr, hlt]⟩

theorem calm_exists {l : Land} {p : Platforms} (hk : Known l p) {platform : Nat} (hpl : platform ∈ l.platforms) {time : Int} :
    ∀ {needs : List Mat}, (∀ m ∈ needs, ∃ c, l.capacity platform m.name = some c) → ∃ b, calm p platform time needs = some b := by
  intro needs h
  unfold calm
  suffices hgen : ∀ b : Bool, ∃ b', needs.foldl (fun r m => r.bind fun b => (p.states (platform, m.name)).map fun s =>
      b && decide ((s.filter fun e => time < e.key).length ≤ 1)) (some b) = some b' from hgen true
  induction needs with
  | nil => intro b; exact ⟨b, rfl⟩
  | cons m ms ih =>
    intro b
    obtain ⟨c, hc⟩ := h m (by simp)
    obtain ⟨s, hs, _⟩ := hk platform m.name c hpl hc
    rw [List.foldl_cons, hs]
    simp only [Option.bind_some, Option.map_some]
    exact ih (fun x hx => h x (by simp [hx])) _

theorem calm_true {p : Platforms} {platform : Nat} {time : Int} : ∀ {needs : List Mat} {b : Bool},
    (∀ m ∈ needs, ∃ s, p.states (platform, m.name) = some s ∧ ∀ e ∈ s, e.key ≤ time) →
    calm p platform time needs = some b → b = true := by
  intro needs b h
  unfold calm
  suffices hgen : ∀ (b : Bool), needs.foldl (fun r m => r.bind fun b => (p.states (platform, m.name)).map fun s =>
      b && decide ((s.filter fun e => time < e.key).length ≤ 1)) (some true) = some b → b = true from hgen b
  induction needs with
  | nil => intro b hb; simpa using hb.symm
  | cons m ms ih =>
    intro b hb
    obtain ⟨s, hs, hk⟩ := h m (by simp)
    have hfil : (s.filter fun e => time < e.key) = [] := by
      rw [List.filter_eq_nil_iff]
      intro e he
      have := hk e he
      simp; exact this
    rw [List.foldl_cons, hs] at hb
    simp only [Option.bind_some, Option.map_some, hfil, List.length_nil, Bool.true_and] at hb
    exact ih (fun x hx => h x (by simp [hx])) b (by simpa using hb)

/-- The ways a call can end, with the storage of the platform. -/
theorem deliver_platform {l : Land} {st : State} {w : Work} {deadline : Int} {out : Outcome}
    (h : deliver l st w deadline = some out) :
    ((w.needs = [] ∨ w.service = true) ∧ out.state.platforms = st.platforms ∧ out.records = [] ∧ out.time = deadline) ∨
    (w.service = false ∧ request l st.platforms (l.platform w.id) deadline w.needs = some [] ∧ out.records = [] ∧
      out.time = deadline ∧ (st.platforms.takeAll (l.platform w.id) deadline w.needs = some out.state.platforms ∨
        calm st.platforms (l.platform w.id) deadline w.needs = some false ∧ out.state.platforms = st.platforms)) ∨
    ∃ req, w.service = false ∧ req ≠ [] ∧ request l st.platforms (l.platform w.id) deadline w.needs = some req ∧
      ∃ o use, plan l st.supply (l.platform w.id) deadline req = some o ∧ platformUse w.needs req = some use ∧
      st.platforms.takeAll (l.platform w.id) (o.start + o.ahead) use = some out.state.platforms ∧
      out.records = recordsOf req o ∧ out.time = o.start + o.ahead := by
  unfold deliver at h
  split at h
  · rename_i hc
    cases h; exact Or.inl ⟨hc, rfl, rfl, rfl⟩
  · rename_i hc
    push Not at hc
    have hsv : w.service = false := by simpa using hc.2
    simp only [Option.bind_eq_some_iff] at h
    obtain ⟨req, hreq, h⟩ := h
    by_cases hr : req = []
    · subst hr
      rw [if_pos rfl] at h
      simp only [Option.bind_eq_some_iff] at h
      obtain ⟨ok, hok, h⟩ := h
      split at h
      · simp only [Option.map_eq_some_iff] at h
        obtain ⟨p, hp, rfl⟩ := h
        exact Or.inr (Or.inl ⟨hsv, hreq, rfl, rfl, Or.inl hp⟩)
      · rename_i hf
        simp only [Bool.not_eq_true] at hf; subst hf
        unfold supply at h
        rw [if_pos rfl] at h
        cases h; exact Or.inr (Or.inl ⟨hsv, hreq, rfl, rfl, Or.inr ⟨hok, rfl⟩⟩)
    · rw [if_neg hr] at h
      obtain ⟨o, use, h1, h2, h3, h4, h5, h6, h7⟩ := supply_spec hr h
      exact Or.inr (Or.inr ⟨req, hsv, hr, hreq, o, use, h1, h2, h3, h5, h6⟩)

theorem history_known {l : Land} (hl : ∀ i, 0 < l.overcome i) {st : State} {log : List Served} (h : History l st log)
    (hm : ∀ s ∈ log, Modest l s.work) : Known l st.platforms := by
  induction h with
  | fresh => exact known_init l
  | serve hh hd hdel ih =>
    rename_i st log w deadline out
    have hk := ih (fun s hs => hm s (by simp [hs]))
    have hw : Modest l w := hm _ (List.mem_cons_self ..)
    rcases deliver_platform hdel with ⟨_, h1, _⟩ | ⟨_, _, _, _, h1 | ⟨_, h1⟩⟩ | ⟨req, _, _, hreq, o, use, hp, hu, h1, _, _⟩
    · rw [h1]; exact hk
    · exact takeAll_known hd hw.1 hk h1
    · rw [h1]; exact hk
    · obtain ⟨d, _, _, _, start, h0, hoff⟩ := plan_spec hp
      obtain ⟨_, hok⟩ := offer_ok hl hoff
      have hsub := request_sublist hreq
      have hn : (use.map (·.name)).Nodup := by rw [(platformUse_spec hu).1]; exact hsub.nodup hw.1
      exact takeAll_known (by have := hok.later; have := hok.ahead; omega) hn hk h1

/-! ## In order -/

theorem add_append {e : Event} {s : List Event} (h : ∀ x ∈ s, keyLe x e = true) : add e s = s ++ [e] := by
  induction s with
  | nil => rfl
  | cons x xs ih =>
    unfold Momentum.add
    rw [if_pos (h x (by simp)), ih (fun y hy => h y (by simp [hy]))]
    rfl

theorem sum_zero {ms : List Mat} {nm : Nat} (h : nm ∉ ms.map (·.name)) :
    ms.foldr (fun m u => if m.name = nm then m.count + u else u) 0 = 0 := by
  induction ms with
  | nil => rfl
  | cons m ms ih =>
    simp only [List.map_cons, List.mem_cons, not_or] at h
    rw [List.foldr_cons, if_neg (fun hh => h.1 hh.symm), ih h.2]

theorem sum_mem {ms : List Mat} (hn : (ms.map (·.name)).Nodup) {m : Mat} (hm : m ∈ ms) :
    ms.foldr (fun x u => if x.name = m.name then x.count + u else u) 0 = m.count := by
  induction ms with
  | nil => simp at hm
  | cons x xs ih =>
    rw [List.map_cons, List.nodup_cons] at hn
    rw [List.foldr_cons]
    rcases List.mem_cons.mp hm with rfl | hm
    · rw [if_pos rfl, sum_zero hn.1]; omega
    · rw [if_neg, ih hn.2 hm]
      intro heq
      exact hn.1 (by rw [heq]; exact List.mem_map_of_mem hm)

theorem records_sum (mats : List Mat) (o : Offer) (nm : Nat) :
    (recordsOf mats o).foldr (fun r u => if r.name = nm then r.count + u else u) 0 =
      mats.foldr (fun m u => if m.name = nm then m.count + u else u) 0 := by
  unfold recordsOf
  rw [List.foldr_map]

theorem request_nil {l : Land} {p : Platforms} {platform : Nat} {time : Int} : ∀ {needs : List Mat},
    request l p platform time needs = some [] → ∀ q ∈ needs, ∃ s e, p.states (platform, q.name) = some s ∧
      lastAt s time = some e ∧ q.count ≤ e.count := by
  intro needs
  induction needs with
  | nil => intro _ q hq; simp at hq
  | cons m ms ih =>
    intro h q hq
    unfold request at h
    simp only [Option.bind_eq_some_iff] at h
    obtain ⟨e, ⟨s, hs, he⟩, rest, hrest, h⟩ := h
    by_cases hlt : e.count < m.count
    · rw [if_pos hlt] at h
      simp at h
    · rw [if_neg hlt] at h
      cases h
      rcases List.mem_cons.mp hq with rfl | hq
      · exact ⟨s, e, hs, he, by omega⟩
      · exact ih hrest q hq

/-- What the storage of a platform holds, when works come in order. -/
def Stored (l : Land) (p : Platforms) (log : List Served) : Prop :=
  ∀ pl m c, pl ∈ l.platforms → l.capacity pl m = some c → 0 ≤ c → ∃ s e, p.states (pl, m) = some s ∧ Headed c s ∧
    s.getLast? = some e ∧ e.count = c + received l log pl m - needed l log pl m ∧ 0 ≤ e.count ∧ e.count ≤ c ∧
    (∀ x ∈ s, x.seq < p.taskIndex) ∧
    ∀ T, 0 ≤ T → (∀ sv ∈ log, l.platform sv.work.id = pl → sv.time ≤ T) → ∀ x ∈ s, x.key ≤ T

theorem stored_init (l : Land) : Stored l (Platforms.init l) [] := by
  intro pl m c hpl hc h0
  refine ⟨fresh c, ⟨-1, .initial, 0, c⟩, by simp [Platforms.init, hpl, hc], ⟨[], rfl⟩, rfl, by simp [received, needed], h0,
    le_refl _, by simp [fresh, Platforms.init], ?_⟩
  intro T hT _ x hx
  simp [fresh] at hx; subst hx
  simp [Event.key]; omega

theorem needed_cons (l : Land) (s : Served) (log : List Served) (pl m : Nat) : needed l (s :: log) pl m =
    (if l.platform s.work.id = pl ∧ s.work.service = false then
      (s.work.needs.foldr (fun m' u => if m'.name = m then m'.count + u else u) 0) else 0) + needed l log pl m := rfl

theorem received_cons (l : Land) (s : Served) (log : List Served) (pl m : Nat) : received l (s :: log) pl m =
    (if l.platform s.work.id = pl then
      (s.records.foldr (fun r u => if r.name = m then r.count + u else u) 0) else 0) + received l log pl m := rfl

/-- Taking materials in order: the new last events. -/
theorem takeAll_last {l : Land} {p p' : Platforms} {log : List Served} (hst : Stored l p log) {platform : Nat} {start : Int}
    {mats : List Mat} (hn : (mats.map (·.name)).Nodup) (h0 : 0 ≤ start)
    (hord : ∀ sv ∈ log, l.platform sv.work.id = platform → sv.time ≤ start) (h : p.takeAll platform start mats = some p')
    {m : Mat} (hm : m ∈ mats) {c : Int} (hpl : platform ∈ l.platforms) (hc : l.capacity platform m.name = some c) (hc0 : 0 ≤ c) :
    ∃ s e e', p.states (platform, m.name) = some s ∧ s.getLast? = some e ∧ p'.states (platform, m.name) = some (s ++ [e']) ∧
      e'.count = e.count - m.count ∧ e'.key = start ∧ e'.seq < (p'.taskIndex : Int) := by
  obtain ⟨h1, _, h3⟩ := takeAll_state hn h
  obtain ⟨s, e, i, k1, k2, k3, k4, k5⟩ := h3 m hm
  obtain ⟨s', el, g1, g2, g3, _, _, _, g7, g8⟩ := hst platform m.name c hpl hc hc0
  rw [k1] at g1; cases g1
  have hle := g8 start h0 hord
  rw [lastAt_all hle, g3] at k2; cases k2
  refine ⟨s, e, ⟨i, .start, start, e.count - m.count⟩, k1, g3, ?_, rfl, rfl, by dsimp only; omega⟩
  rw [k5, add_append]
  intro x hx
  have hx1 := hle x hx
  have hx2 := g7 x hx
  have hk : Event.key ⟨i, .start, start, e.count - m.count⟩ = start := rfl
  unfold Momentum.keyLe
  rw [hk]
  by_cases hlt : x.key < start
  · simp [hlt]
  · have heq : x.key = start := by omega
    have : x.seq < (i : Int) := by omega
    simp [heq, this]

theorem sum_other {ms : List Mat} {nm : Nat} {pl pl' : Nat} {b : Prop} [Decidable b]
    (h : pl ≠ pl' ∨ nm ∉ ms.map (·.name)) :
    (if pl' = pl ∧ b then ms.foldr (fun m u => if m.name = nm then m.count + u else u) 0 else 0) = 0 := by
  split
  · rename_i hc
    rcases h with h | h
    · exact absurd hc.1.symm h
    · exact sum_zero h
  · rfl

theorem stored_step {l : Land} (hl : ∀ i, 0 < l.overcome i) {st : State} {log : List Served} (hst : Stored l st.platforms log)
    {w : Work} {deadline : Int} {out : Outcome} (hd : 0 ≤ deadline) (hw : Modest l w) (hh : Housed l w)
    (hdel : deliver l st w deadline = some out)
    (hord : ∀ sv ∈ log, l.platform sv.work.id = l.platform w.id → sv.time ≤ deadline)
    (hall : out.records = [] ∨ out.records.map (·.name) = w.needs.map (·.name)) :
    Stored l out.state.platforms (⟨w, deadline, out.records, out.time, out.booked⟩ :: log) := by
  have hlevel : ∀ q ∈ w.needs, ∃ s c, st.platforms.states (l.platform w.id, q.name) = some s ∧
      l.capacity (l.platform w.id) q.name = some c ∧ 0 ≤ c ∧ q.count ≤ c ∧ 0 ≤ q.count ∧ ∀ e ∈ s, e.key ≤ deadline := by
    intro q hq
    obtain ⟨c, hc⟩ := hh.2 q hq
    obtain ⟨_, h1, h2⟩ := hw.2 q hq
    have hqc := h2 c hc
    obtain ⟨s, _, g1, _, _, _, _, _, _, g8⟩ := hst _ _ c hh.1 hc (by omega)
    exact ⟨s, c, g1, hc, by omega, hqc, h1, g8 deadline hd hord⟩
  -- a part of the storage that is not touched
  have hsame : ∀ pl m c, pl ∈ l.platforms → l.capacity pl m = some c → 0 ≤ c →
      out.state.platforms.states (pl, m) = st.platforms.states (pl, m) →
      st.platforms.taskIndex ≤ out.state.platforms.taskIndex →
      received l (⟨w, deadline, out.records, out.time, out.booked⟩ :: log) pl m = received l log pl m →
      needed l (⟨w, deadline, out.records, out.time, out.booked⟩ :: log) pl m = needed l log pl m →
      ∃ s e, out.state.platforms.states (pl, m) = some s ∧ Headed c s ∧ s.getLast? = some e ∧
        e.count = c + received l (⟨w, deadline, out.records, out.time, out.booked⟩ :: log) pl m -
          needed l (⟨w, deadline, out.records, out.time, out.booked⟩ :: log) pl m ∧ 0 ≤ e.count ∧ e.count ≤ c ∧
        (∀ x ∈ s, x.seq < out.state.platforms.taskIndex) ∧
        ∀ T, 0 ≤ T → (∀ sv ∈ (⟨w, deadline, out.records, out.time, out.booked⟩ :: log : List Served),
          l.platform sv.work.id = pl → sv.time ≤ T) → ∀ x ∈ s, x.key ≤ T := by
    intro pl m c hpl hc h0 hstate hidx hr hn
    obtain ⟨s, e, g1, g2, g3, g4, g5, g6, g7, g8⟩ := hst pl m c hpl hc h0
    refine ⟨s, e, by rw [hstate]; exact g1, g2, g3, by rw [hr, hn]; exact g4, g5, g6, ?_, ?_⟩
    · intro x hx; have := g7 x hx; omega
    · intro T hT hTs; exact g8 T hT (fun sv hsv => hTs sv (by simp [hsv]))
  -- a part of the storage with a new event
  have hnew : ∀ (mats : List Mat) (start : Int), (mats.map (·.name)).Nodup → deadline ≤ start → out.time = start →
      st.platforms.takeAll (l.platform w.id) start mats = some out.state.platforms →
      ∀ x ∈ mats, ∀ c, l.capacity (l.platform w.id) x.name = some c → 0 ≤ c →
      (∀ s e, st.platforms.states (l.platform w.id, x.name) = some s → s.getLast? = some e → 
        x.count ≤ e.count ∧ e.count - x.count ≤ c ∧
        received l (⟨w, deadline, out.records, out.time, out.booked⟩ :: log) (l.platform w.id) x.name -
          needed l (⟨w, deadline, out.records, out.time, out.booked⟩ :: log) (l.platform w.id) x.name =
        received l log (l.platform w.id) x.name - needed l log (l.platform w.id) x.name - x.count) →
      ∃ s e, out.state.platforms.states (l.platform w.id, x.name) = some s ∧ Headed c s ∧ s.getLast? = some e ∧
        e.count = c + received l (⟨w, deadline, out.records, out.time, out.booked⟩ :: log) (l.platform w.id) x.name -
          needed l (⟨w, deadline, out.records, out.time, out.booked⟩ :: log) (l.platform w.id) x.name ∧
        0 ≤ e.count ∧ e.count ≤ c ∧
        (∀ x ∈ s, x.seq < out.state.platforms.taskIndex) ∧
        ∀ T, 0 ≤ T → (∀ sv ∈ (⟨w, deadline, out.records, out.time, out.booked⟩ :: log : List Served),
          l.platform sv.work.id = l.platform w.id → sv.time ≤ T) → ∀ x ∈ s, x.key ≤ T := by
    intro mats start hn hds htime htake x hx c hc h0 hv
    have hord' : ∀ sv ∈ log, l.platform sv.work.id = l.platform w.id → sv.time ≤ start := by
      intro sv hsv hp; have := hord sv hsv hp; omega
    obtain ⟨s, e, e', k1, k2, k3, k4, k5, k6⟩ := takeAll_last hst hn (by omega) hord' htake hx hh.1 hc h0
    obtain ⟨s', e2, g1, g2, g3, g4, g5, g6, g7, g8⟩ := hst _ _ c hh.1 hc h0
    rw [k1] at g1; cases g1
    rw [k2] at g3; cases g3
    obtain ⟨v1, v2, v3⟩ := hv s e k1 k2
    have hidx := (takeAll_state hn htake).1
    refine ⟨s ++ [e'], e', k3, ?_, by simp, by omega, by omega, by omega, ?_, ?_⟩
    · obtain ⟨es, rfl⟩ := g2; exact ⟨es ++ [e'], rfl⟩
    · intro y hy
      rcases List.mem_append.mp hy with hy | hy
      · have := g7 y hy; omega
      · simp at hy; subst hy; exact k6
    · intro T hT hTs y hy
      rcases List.mem_append.mp hy with hy | hy
      · exact g8 T hT (fun sv hsv => hTs sv (by simp [hsv])) y hy
      · simp at hy; subst hy
        have := hTs ⟨w, deadline, out.records, out.time, out.booked⟩ (by simp) rfl
        dsimp only at this
        omega
  intro pl m c hpl hc h0
  rcases deliver_platform hdel with ⟨hno, h1, h2, h3⟩ | ⟨hsv, hreq, hrec, htime, h1 | ⟨hcalm, h1⟩⟩ |
    ⟨req, hsv, hne, hreq, o, use, hp, hu, h1, hrec, htime⟩
  · refine hsame pl m c hpl hc h0 (by rw [h1]) (by rw [h1]) ?_ ?_
    · rw [received_cons]; dsimp only; rw [h2]; simp
    · rw [needed_cons]; dsimp only
      rcases hno with hno | hno
      · rw [hno]; simp
      · rw [hno]; simp
  · have hrecv : ∀ pl m, received l (⟨w, deadline, out.records, out.time, out.booked⟩ :: log) pl m = received l log pl m := by
      intro pl m; rw [received_cons]; dsimp only; rw [hrec]; simp
    by_cases hkey : pl ≠ l.platform w.id ∨ m ∉ w.needs.map (·.name)
    · refine hsame pl m c hpl hc h0 ((takeAll_state hw.1 h1).2.1 pl m hkey) (takeAll_state hw.1 h1).1 (hrecv pl m) ?_
      rw [needed_cons]; dsimp only; rw [sum_other hkey]; simp
    · push Not at hkey
      obtain ⟨rfl, hm⟩ := hkey
      obtain ⟨x, hx, rfl⟩ := List.mem_map.mp hm
      refine hnew w.needs deadline hw.1 (le_refl _) htime h1 x hx c hc h0 ?_
      intro s e hs he
      obtain ⟨s', e', r1, r2, r3⟩ := request_nil hreq x hx
      obtain ⟨s2, c2, q1, q2, q3, q4, q5, q6⟩ := hlevel x hx
      rw [hs] at r1 q1; cases r1; cases q1
      rw [lastAt_all q6, he] at r2; cases r2
      obtain ⟨s3, e3, g1, _, g3, _, _, g6, _⟩ := hst _ _ c hh.1 hc h0
      rw [hs] at g1; cases g1
      rw [he] at g3; cases g3
      refine ⟨r3, by omega, ?_⟩
      rw [hrecv, needed_cons]; dsimp only
      rw [if_pos ⟨rfl, hsv⟩, sum_mem hw.1 hx]; omega
  · exfalso
    have := calm_true (fun q hq => (by
      obtain ⟨s, c, q1, _, _, _, _, q6⟩ := hlevel q hq
      exact ⟨s, q1, q6⟩)) hcalm
    simp at this
  · obtain ⟨d, _, _, hle, start, hs0, hoff⟩ := plan_spec hp
    obtain ⟨_, hok⟩ := offer_ok hl hoff
    have hnames : req.map (·.name) = w.needs.map (·.name) := by
      rcases hall with hall | hall
      · rw [hrec] at hall; simp [recordsOf] at hall; exact absurd hall hne
      · rw [hrec] at hall
        rw [← hall]; unfold recordsOf; rw [List.map_map]; rfl
    have hnreq : (req.map (·.name)).Nodup := by rw [hnames]; exact hw.1
    obtain ⟨u1, u2⟩ := platformUse_spec hu
    have hnuse : (use.map (·.name)).Nodup := by rw [u1]; exact hnreq
    by_cases hkey : pl ≠ l.platform w.id ∨ m ∉ w.needs.map (·.name)
    · have hkey' : pl ≠ l.platform w.id ∨ m ∉ use.map (·.name) := by rw [u1, hnames]; exact hkey
      refine hsame pl m c hpl hc h0 ((takeAll_state hnuse h1).2.1 pl m hkey') (takeAll_state hnuse h1).1 ?_ ?_
      · rw [received_cons]; dsimp only; rw [hrec, records_sum]
        have := sum_other (ms := req) (nm := m) (pl := pl) (pl' := l.platform w.id) (b := True) (by rw [hnames]; exact hkey)
        simp only [and_true] at this
        rw [this]; simp
      · rw [needed_cons]; dsimp only; rw [sum_other hkey]; simp
    · push Not at hkey
      obtain ⟨rfl, hm⟩ := hkey
      rw [← hnames, ← u1] at hm
      obtain ⟨x, hx, rfl⟩ := List.mem_map.mp hm
      refine hnew use (o.start + o.ahead) hnuse hle htime h1 x hx c hc h0 ?_
      intro s e hs he
      obtain ⟨r, hr, q, hq, hrn, hqn, hcount⟩ := u2 x hx
      obtain ⟨q', hq', hqn', s', e', c', k1, k2, k3, k4, k5⟩ := request_mem hreq r hr
      have hqq : q' = q := by
        have hinj := List.inj_on_of_nodup_map hw.1
        exact hinj hq' hq (by rw [hqn', hrn, hqn])
      subst hqq
      obtain ⟨s2, c2, p1, p2, p3, p4, p5, p6⟩ := hlevel q' hq
      rw [k1] at p1; cases p1
      rw [k3] at p2; cases p2
      rw [hqn] at k1 k3
      rw [hs] at k1; cases k1
      rw [hc] at k3; cases k3
      rw [lastAt_all p6, he] at k2; cases k2
      refine ⟨by omega, by omega, ?_⟩
      rw [received_cons, needed_cons]; dsimp only
      rw [if_pos rfl, if_pos ⟨rfl, hsv⟩, hrec, records_sum]
      have e1 := sum_mem hnreq hr
      have e2 := sum_mem hw.1 hq
      rw [hrn] at e1
      rw [hqn] at e2
      rw [e1, e2]; omega

theorem history_stored {l : Land} (hl : ∀ i, 0 < l.overcome i) {st : State} {log : List Served} (h : History l st log)
    (hm : ∀ s ∈ log, Modest l s.work ∧ Housed l s.work) (ho : InOrder l log) (ha : AllOrNothing log) :
    Stored l st.platforms log := by
  induction h with
  | fresh => exact stored_init l
  | serve hh hd hdel ih =>
    have ho' := List.pairwise_cons.mp ho
    have hw := hm _ (List.mem_cons_self ..)
    exact stored_step hl (ih (fun s hs => hm s (by simp [hs])) ho'.2 (fun s hs => ha s (by simp [hs]))) hd hw.1 hw.2 hdel
      (fun sv hsv hp => ho'.1 sv hsv hp) (ha _ (List.mem_cons_self ..))

end Sampo.Supply
