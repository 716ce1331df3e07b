import Verif.Lemmas.JIT

namespace Sampo.JIT

/-! ## More facts about one release list -/

theorem consume_mem {q q' : Queue} {n : Int} (h : consume n q = some q') :
    ∀ e ∈ q', ∃ e' ∈ q, e.time = e'.time ∧ (0 ≤ n → e.count ≤ e'.count) := by
  induction q generalizing n with
  | nil =>
    by_cases hn' : 0 < n
    · rw [consume_nil hn'] at h; cases h
    · rw [consume_nonpos _ (by omega)] at h; cases h; simp
  | cons e q ih =>
    by_cases hn' : 0 < n
    · rw [consume_cons _ _ hn'] at h
      split at h
      · cases h
        intro x hx
        rcases List.mem_cons.mp hx with rfl | hx
        · exact ⟨e, by simp, rfl, fun _ => by simp; omega⟩
        · exact ⟨x, by simp [hx], rfl, fun _ => Int.le_refl _⟩
      · rename_i hc
        intro x hx
        obtain ⟨y, hy, hxy, hc'⟩ := ih h x hx
        exact ⟨y, by simp [hy], hxy, fun _ => hc' (by simp at hc; omega)⟩
    · rw [consume_nonpos _ (by omega)] at h; cases h
      exact fun x hx => ⟨x, hx, rfl, fun _ => Int.le_refl _⟩

/-- Releases later than a moment by which enough workers are free are not consumed. -/
theorem consume_keeps_late {q q' : Queue} {n t : Int} (hs : Ordered q) (hq : NonNeg q)
    (h : consume n q = some q') (ht : n ≤ releasedBy q t) : ∀ e ∈ q, t < e.time → e ∈ q' := by
  induction q generalizing n with
  | nil => simp
  | cons e q ih =>
    intro x hx hxt
    by_cases hn' : 0 < n
    · have he : e.time ≤ t := by
        apply Int.not_lt.mp; intro hlt
        rw [releasedBy_head_late hs hlt] at ht; omega
      have hxq : x ∈ q := by
        rcases List.mem_cons.mp hx with rfl | hx
        · omega
        · exact hx
      rw [consume_cons _ _ hn'] at h
      split at h
      · cases h; exact List.mem_cons_of_mem _ hxq
      · refine ih hs.tail hq.tail h ?_ x hxq hxt
        rw [releasedBy_cons, if_pos he] at ht; omega
    · rw [consume_nonpos _ (by omega)] at h; cases h; exact hx

theorem exists_released_pos {q : Queue} {t : Int} (h : 0 < releasedBy q t) :
    ∃ e ∈ q, e.time ≤ t ∧ 0 < e.count := by
  induction q with
  | nil => simp at h
  | cons e q ih =>
    rw [releasedBy_cons] at h
    by_cases h1 : e.time ≤ t
    · rw [if_pos h1] at h
      by_cases h2 : 0 < e.count
      · exact ⟨e, by simp, h1, h2⟩
      · obtain ⟨x, hx, h3⟩ := ih (by omega)
        exact ⟨x, by simp [hx], h3⟩
    · rw [if_neg h1] at h
      obtain ⟨x, hx, h3⟩ := ih (by omega)
      exact ⟨x, by simp [hx], h3⟩

theorem latest_spec {q : Queue} (hs : Ordered q) {l : Int} (h : latest q = some l) :
    (∀ e ∈ q, e.time ≤ l) ∧ ∃ e ∈ q, e.time = l := by
  unfold latest at h
  simp only [Option.map_eq_some_iff] at h
  obtain ⟨x, hx, rfl⟩ := h
  obtain ⟨ys, rfl⟩ := List.getLast?_eq_some_iff.mp hx
  refine ⟨?_, x, by simp, rfl⟩
  intro e he
  unfold Ordered at hs
  rw [List.pairwise_append] at hs
  rcases List.mem_append.mp he with he | he
  · exact hs.2.2 e he x (by simp)
  · simp at he; rw [he]; exact Int.le_refl _

theorem releasedBy_all {q : Queue} {t : Int} (h : ∀ e ∈ q, e.time ≤ t) : releasedBy q t = total q := by
  induction q with
  | nil => simp
  | cons e q ih =>
    rw [releasedBy_cons, total_cons, if_pos (h e (by simp)), ih (fun x hx => h x (List.mem_cons_of_mem _ hx))]

/-- Conditions under which all data of one release list are kept by a step. -/
structure QInv (c : Int) (q : Queue) : Prop where
  ordered : Ordered q
  nonneg : NonNeg q
  total_eq : total q = c

theorem stepQueue_inv {c : Int} {q q' : Queue} (h : QInv c q) {ind : Bool} {n f : Int} (hn : 0 ≤ n) (hnc : n ≤ c)
    (hs : stepQueue ind q n f = some q') : QInv c q' := by
  unfold stepQueue at hs
  split at hs
  · cases hs
    have : 0 ≤ total q := by have := releasedBy_nonneg h.nonneg 0; have := releasedBy_le_total h.nonneg 0; omega
    refine ⟨by simp [squashQueue, Ordered], ?_, by simp [squashQueue]; exact h.total_eq⟩
    intro e he
    simp [squashQueue] at he; subst he; exact this
  · unfold updateQueue at hs
    simp only [Option.map_eq_some_iff] at hs
    obtain ⟨q1, h1, rfl⟩ := hs
    refine ⟨bubble_ordered (consume_ordered h.ordered h1), bubble_nonneg hn (consume_nonneg h.nonneg ?_ h1), ?_⟩
    · rw [h.total_eq]; exact hnc
    · rw [bubble_total, consume_total hn h1, h.total_eq]; simp only; omega

/-- The answer for an ordinary work: enough workers are released by then. -/
theorem ask_ordinary {c : Int} {q : Queue} (h : QInv c q) {n acc r : Int} (hnc : n ≤ c)
    (ha : ask false q n acc = some r) : n ≤ releasedBy q r ∧ ∀ s, acc ≤ s → s < r → releasedBy q s < n := by
  have ha' : grabWrap q n acc = some r := by simpa [ask] using ha
  rw [grabWrap_eq h.nonneg _ (by rw [h.total_eq]; exact hnc)] at ha'
  exact (grab_spec h.ordered h.nonneg ha').2

theorem ask_independent {c : Int} {q : Queue} (h : QInv c q) {n acc r : Int} (ha : ask true q n acc = some r) :
    (∀ e ∈ q, e.time ≤ r) ∧ (r = acc ∨ ∃ e ∈ q, e.time = r) := by
  unfold ask at ha
  simp only [if_true, Option.map_eq_some_iff] at ha
  obtain ⟨l, hl, rfl⟩ := ha
  obtain ⟨h1, h2⟩ := latest_spec h.ordered hl
  refine ⟨fun e he => by have := h1 e he; omega, ?_⟩
  by_cases hc : l ≤ acc
  · left; omega
  · right; rw [show max acc l = l by omega]; exact h2

/-! ## Busy workers -/

theorem teamCount_nil (a : AgentId) : teamCount [] a = 0 := rfl

theorem teamCount_not_mem {team : List Worker} {a : AgentId} (h : a ∉ team.map (·.agent)) : teamCount team a = 0 := by
  unfold teamCount
  rw [List.filter_eq_nil_iff.mpr]
  · rfl
  · intro w hw
    simp only [decide_eq_true_eq]
    intro he; exact h (he ▸ List.mem_map_of_mem hw)

theorem teamCount_mem {team : List Worker} {w : Worker} (hnd : (team.map (·.agent)).Nodup) (hw : w ∈ team) :
    teamCount team w.agent = w.count := by
  induction team with
  | nil => cases hw
  | cons v vs ih =>
    simp only [List.map_cons, List.nodup_cons] at hnd
    rcases List.mem_cons.mp hw with rfl | hw
    · have := teamCount_not_mem hnd.1
      unfold teamCount at this ⊢
      simp [this]
    · have hne : v.agent ≠ w.agent := by intro he; exact hnd.1 (he ▸ List.mem_map_of_mem hw)
      have := ih hnd.2 hw
      unfold teamCount at this ⊢
      simp [hne, this]

theorem busy_cons (p : Placement) (ps : List Placement) (a : AgentId) (t : Int) :
    busy (p :: ps) a t = (if p.start ≤ t ∧ t < p.finish then teamCount p.team a else 0) + busy ps a t := by
  unfold busy Placement.runs; by_cases h : p.start ≤ t ∧ t < p.finish <;> simp [h]

/-! ## The invariant of histories -/

/-- What holds for each worker type after a history. -/
structure AgentInv (ps : List Placement) (a : AgentId) (c : Int) (q : Queue) : Prop extends QInv c q where
  room : ∀ t, busy ps a t ≤ c - releasedBy q t
  latestFinish : ∀ p ∈ ps, a ∈ p.team.map (·.agent) → ∃ e ∈ q, p.finish ≤ e.time
  independentFinish : ∀ p ∈ ps, p.independent = true → a ∈ p.team.map (·.agent) →
    ∀ e ∈ q, 0 < e.count → p.finish ≤ e.time

theorem agentInv_step {ps : List Placement} {a : AgentId} {c : Int} {q q' : Queue} (h : AgentInv ps a c q)
    {p : Placement} {w : Worker} (hnd : (p.team.map (·.agent)).Nodup) (hw : w ∈ p.team) (hwa : w.agent = a)
    (hn : 0 ≤ w.count) (hnc : w.count ≤ c)
    {acc r : Int} (hr : ask p.independent q w.count acc = some r) (hrs : r ≤ p.start) (hsf : p.start ≤ p.finish)
    (hs : stepQueue p.independent q w.count p.finish = some q') : AgentInv (p :: ps) a c q' := by
  have hq' := stepQueue_inv h.toQInv hn hnc hs
  have htc : teamCount p.team a = w.count := by rw [← hwa]; exact teamCount_mem hnd hw
  have hamem : a ∈ p.team.map (·.agent) := hwa ▸ List.mem_map_of_mem hw
  cases hind : p.independent with
  | true =>
    rw [hind] at hr hs
    obtain ⟨hall, _⟩ := ask_independent h.toQInv hr
    simp [stepQueue] at hs
    subst hs
    have hrel : ∀ t, p.start ≤ t → releasedBy q t = c := by
      intro t ht
      rw [releasedBy_all (fun e he => by have := hall e he; omega), h.total_eq]
    have hrel' : ∀ t, releasedBy (squashQueue q p.finish) t = if p.finish ≤ t then c else 0 := by
      intro t; unfold squashQueue; rw [releasedBy_cons]; simp
      split
      · exact h.total_eq
      · rfl
    refine ⟨hq', ?_, ?_, ?_⟩
    · intro t
      rw [busy_cons, hrel', htc]
      have := h.room t
      have h0 := releasedBy_nonneg h.nonneg t
      by_cases hts : p.start ≤ t
      · have := hrel t hts
        split <;> split <;> omega
      · split <;> split <;> omega
    · intro p' hp' ha'
      refine ⟨⟨p.finish, (q.map (·.count)).sum⟩, by simp [squashQueue], ?_⟩
      rcases List.mem_cons.mp hp' with rfl | hp'
      · exact Int.le_refl _
      · obtain ⟨e, he, hle⟩ := h.latestFinish p' hp' ha'
        have := hall e he
        simp only; omega
    · intro p' hp' _ ha' e he hpos
      simp [squashQueue] at he
      subst he
      rcases List.mem_cons.mp hp' with rfl | hp'
      · exact Int.le_refl _
      · obtain ⟨e, he, hle⟩ := h.latestFinish p' hp' ha'
        have := hall e he
        simp only; omega
  | false =>
    rw [hind] at hr hs
    obtain ⟨hrel, _⟩ := ask_ordinary h.toQInv hnc hr
    simp [stepQueue, updateQueue] at hs
    obtain ⟨q1, h1, rfl⟩ := hs
    have hle := consume_releasedBy_le h.nonneg hn h1
    have heq : ∀ t, p.start ≤ t → releasedBy q1 t = releasedBy q t - w.count := by
      intro t ht
      apply consume_releasedBy_eq h.ordered h.nonneg hn h1
      have := releasedBy_mono h.nonneg (show r ≤ t by omega)
      omega
    refine ⟨hq', ?_, ?_, ?_⟩
    · intro t
      rw [busy_cons, bubble_releasedBy, htc]
      have := h.room t
      have := hle t
      by_cases hts : p.start ≤ t
      · have := heq t hts
        simp only; split <;> split <;> omega
      · simp only; split <;> split <;> omega
    · intro p' hp' ha'
      rcases List.mem_cons.mp hp' with rfl | hp'
      · exact ⟨⟨p'.finish, w.count⟩, mem_bubble.mpr (Or.inl rfl), Int.le_refl _⟩
      · by_cases hc : p'.finish ≤ p.finish
        · exact ⟨⟨p.finish, w.count⟩, mem_bubble.mpr (Or.inl rfl), hc⟩
        · obtain ⟨e, he, hle⟩ := h.latestFinish p' hp' ha'
          refine ⟨e, mem_bubble.mpr (Or.inr ?_), hle⟩
          exact consume_keeps_late h.ordered h.nonneg h1 hrel e he (by omega)
    · intro p' hp' hpi ha' e he hpos
      rcases List.mem_cons.mp hp' with rfl | hp'
      · rw [hind] at hpi; cases hpi
      · rcases mem_bubble.mp he with rfl | he
        · obtain ⟨e, he, het, hec⟩ := exists_released_pos (q := q) (t := r) (by simp at hpos; omega)
          have := h.independentFinish p' hp' hpi ha' e he hec
          simp only; omega
        · obtain ⟨e', he', ht', hc'⟩ := consume_mem h1 e he
          have := h.independentFinish p' hp' hpi ha' e' he' (by have := hc' hn; omega)
          omega

theorem agentInv_skip {ps : List Placement} {a : AgentId} {c : Int} {q : Queue} (h : AgentInv ps a c q)
    {p : Placement} (ha : a ∉ p.team.map (·.agent)) : AgentInv (p :: ps) a c q := by
  refine ⟨h.toQInv, ?_, ?_, ?_⟩
  · intro t
    have := h.room t
    rw [busy_cons, teamCount_not_mem ha]
    split <;> omega
  · intro p' hp' ha'
    rcases List.mem_cons.mp hp' with rfl | hp'
    · exact absurd ha' ha
    · exact h.latestFinish p' hp' ha'
  · intro p' hp' hi ha'
    rcases List.mem_cons.mp hp' with rfl | hp'
    · exact absurd ha' ha
    · exact h.independentFinish p' hp' hi ha'

theorem history_inv {pool : AgentId → Option Int} {tl : Timeline} {ps : List Placement}
    (h : History pool tl ps) {a : AgentId} {c : Int} (ha : pool a = some c) (hc : 0 ≤ c) :
    ∃ q, tl a = some q ∧ AgentInv ps a c q := by
  induction h with
  | fresh =>
    refine ⟨[⟨0, c⟩], by simp [init, ha], ⟨⟨by simp [Ordered], ?_, by simp⟩, ?_, by simp, by simp⟩⟩
    · intro e he; simp at he; subst he; exact hc
    · intro t; simp [busy, releasedBy_cons]; split <;> omega
  | place p from_ t hh hwf hwp hf hts hsf hu ih =>
    obtain ⟨q, hq, hinv⟩ := ih
    by_cases hmem : a ∈ p.team.map (·.agent)
    · obtain ⟨w, hw, hwa⟩ := List.mem_map.mp hmem
      obtain ⟨q1, q', h1, h2, h3⟩ := update_mem hu hwf.1 hw
      obtain ⟨q2, a', r', h4, _, h5, h6⟩ := findMinStart_mem hf hw
      rw [hwa] at h1 h2 h4
      rw [hq] at h1 h4
      cases h1; cases h4
      obtain ⟨c', hc', hle⟩ := hwp w hw
      rw [hwa, ha] at hc'
      cases hc'
      exact ⟨q', h2, agentInv_step hinv hwf.1 hw hwa (hwf.2 w hw) hle h6 (by omega) hsf h3⟩
    · exact ⟨q, by rw [update_not_mem hu hmem]; exact hq, agentInv_skip hinv hmem⟩

/-- A property of single release lists that every step of every worker keeps is kept by `update`. -/
theorem update_forall {P : AgentId → Queue → Prop} {tl tl' : Timeline} {f : Int} {ind : Bool}
    {team : List Worker} (h : update tl f ind team = some tl')
    (hP : ∀ w ∈ team, ∀ q q', P w.agent q → stepQueue ind q w.count f = some q' → P w.agent q')
    (h0 : ∀ a q, tl a = some q → P a q) :
    (∀ a q, tl' a = some q → P a q) ∧ ∀ a, (tl' a).isSome = (tl a).isSome := by
  induction team generalizing tl with
  | nil => simp [update] at h; subst h; exact ⟨h0, fun _ => rfl⟩
  | cons w ws ih =>
    unfold update at h
    simp only [Option.bind_eq_bind, Option.bind_eq_some_iff] at h
    obtain ⟨q, hq, q', hq', h⟩ := h
    obtain ⟨h1, h2⟩ := ih h (fun v hv => hP v (List.mem_cons_of_mem _ hv)) (by
      intro a p hp
      unfold JIT.set at hp
      split at hp
      · rename_i ha; subst ha; cases hp
        exact hP w (by simp) q _ (h0 _ _ hq) hq'
      · exact h0 a p hp)
    refine ⟨h1, fun a => ?_⟩
    rw [h2 a]; unfold JIT.set; split
    · rename_i ha; subst ha; simp [hq]
    · rfl

theorem step_total_ordered {ind : Bool} {q q' : Queue} {n f : Int} (hn : 0 ≤ n)
    (h : stepQueue ind q n f = some q') (hs : Ordered q) : total q' = total q ∧ Ordered q' ∧ q' ≠ [] := by
  unfold stepQueue at h
  split at h
  · cases h; exact ⟨by simp [squashQueue, total], by simp [squashQueue, Ordered], by simp [squashQueue]⟩
  · simp only [updateQueue, Option.map_eq_some_iff] at h
    obtain ⟨q1, h1, rfl⟩ := h
    refine ⟨?_, bubble_ordered (consume_ordered hs h1), bubble_ne_nil _ _⟩
    rw [bubble_total, consume_total hn h1]; simp only; omega

end Sampo.JIT
