import Verif.Model.SupplyQuery
import Verif.Lemmas.SupplyPlatform

/-! Lemmas about the questions to the supply timeline. -/

namespace Sampo.Supply

open Momentum (Event lastAt available add keyLe)

/-! ## The same trip is found for a later deadline -/

/-- Two runs of the inner loop, for the deadlines `a ≤ b`: the second one has an arrival exactly at `b`, or both have chosen the
same offer, or the first one will not choose an arrival at `b` before it has chosen one before `a`. -/
def Together (a b : Int) (x y : Option Offer) : Prop := finishOf y = b ∨ y = x ∨ (a ≤ finishOf x ∧ finishOf x < b)

theorem together_choose {a b : Int} (hab : a ≤ b) {x y : Option Offer} (h : Together a b x y) (o : Offer) :
    Together a b (choose a x o) (choose b y o) := by
  unfold Together at *
  have ho : finishOf (some o) = o.start + o.ahead := rfl
  rcases h with h | h | ⟨h1, h2⟩
  · left; unfold choose; rw [if_neg (by omega)]; exact h
  · subst h
    unfold choose
    by_cases c1 : (finishOf y > a ∧ o.start + o.ahead < finishOf y) ∨ finishOf y < a <;>
    by_cases c2 : (finishOf y > b ∧ o.start + o.ahead < finishOf y) ∨ finishOf y < b
    · rw [if_pos c1, if_pos c2]; exact Or.inr (Or.inl rfl)
    · rw [if_pos c1, if_neg c2, ho]
      by_cases hb : finishOf y = b
      · exact Or.inl hb
      · exfalso; omega
    · rw [if_neg c1, if_pos c2, ho]
      by_cases hb : finishOf y < b
      · exact Or.inr (Or.inr ⟨by omega, hb⟩)
      · exfalso; omega
    · rw [if_neg c1, if_neg c2]; exact Or.inr (Or.inl rfl)
  · by_cases hy : finishOf y = b
    · left; unfold choose; rw [if_neg (by omega)]; exact hy
    · unfold choose
      by_cases c1 : (finishOf x > a ∧ o.start + o.ahead < finishOf x) ∨ finishOf x < a
      · rw [if_pos c1]
        by_cases hoa : a ≤ o.start + o.ahead
        · exact Or.inr (Or.inr ⟨by rw [ho]; exact hoa, by rw [ho]; omega⟩)
        · rw [if_pos (by omega)]
          exact Or.inr (Or.inl rfl)
      · rw [if_neg c1]
        exact Or.inr (Or.inr ⟨h1, h2⟩)

theorem together_foldl {a b : Int} (hab : a ≤ b) : ∀ {os : List Offer} {x y : Option Offer}, Together a b x y →
    Together a b (os.foldl (choose a) x) (os.foldl (choose b) y)
  | [], _, _, h => h
  | o :: os, _, _, h => by
    rw [List.foldl_cons, List.foldl_cons]
    exact together_foldl hab (together_choose hab h o)

theorem searchLoop_later {l : Land} {tl : Timeline} {platform : Nat} {mats : List Mat} {ds : List Depot} {a : Int} {o : Offer}
    (h0 : 0 ≤ a) (hab : a ≤ o.start + o.ahead) : ∀ {fuel fuel' : Nat} {start : Int} {x y : Option Offer}, fuel ≤ fuel' →
    searchLoop l tl platform mats ds a fuel start x = some (some (some o)) →
    (finishOf y = o.start + o.ahead ∨ y = x) →
    ∃ o', searchLoop l tl platform mats ds (o.start + o.ahead) fuel' start y = some (some (some o')) ∧
      o'.start + o'.ahead = o.start + o.ahead := by
  intro fuel
  induction fuel with
  | zero => intro fuel' start x y _ h; simp [searchLoop] at h
  | succ fuel ih =>
    intro fuel' start x y hf h hxy
    obtain ⟨g, rfl⟩ : ∃ g, fuel' = g + 1 := ⟨fuel' - 1, by omega⟩
    by_cases hy : finishOf y = o.start + o.ahead
    · unfold searchLoop
      rw [if_neg (by omega)]
      cases y with
      | none => simp only [finishOf] at hy; omega
      | some z => exact ⟨z, rfl, hy⟩
    · rcases hxy with hxy | hxy
      · exact absurd hxy hy
      · subst hxy
        unfold searchLoop at h
        by_cases hlt : finishOf y < a
        · rw [if_pos hlt] at h
          unfold searchLoop
          rw [if_pos (by omega)]
          cases ho : offers l tl platform mats (start + 1) ds with
          | none => rw [ho] at h; simp at h
          | some os =>
            rw [ho] at h
            dsimp only at h ⊢
            have ht := together_foldl hab (os := os) (x := y) (y := y) (Or.inr (Or.inl rfl))
            refine ih (by omega) h ?_
            rcases ht with ht | ht | ⟨h1, h2⟩
            · exact Or.inl ht
            · exact Or.inr ht
            · exfalso
              cases fuel with
              | zero => simp [searchLoop] at h
              | succ fuel =>
                unfold searchLoop at h
                rw [if_neg (by omega)] at h
                simp only [Option.some.injEq] at h
                rw [h] at h2
                simp [finishOf] at h2
        · rw [if_neg hlt] at h
          simp only [Option.some.injEq] at h
          subst h
          exact absurd rfl hy

/-- If a trip for the deadline `a` arrives at `b`, the trip for the deadline `b` arrives at `b`. -/
theorem plan_later {l : Land} {tl : Timeline} {platform : Nat} {a : Int} {mats : List Mat} {o : Offer} (h0 : 0 ≤ a)
    (h : plan l tl platform a mats = some o) :
    ∃ o', plan l tl platform (o.start + o.ahead) mats = some o' ∧ o'.start + o'.ahead = o.start + o.ahead := by
  obtain ⟨_, _, _, hle, _⟩ := plan_spec h
  unfold plan at h
  simp only [Option.bind_eq_some_iff, id_eq] at h
  obtain ⟨ds, hds, res, ⟨x, hx, rfl⟩, rfl⟩ := h
  obtain ⟨o', h1, h2⟩ := searchLoop_later h0 hle (fuel' := ((o.start + o.ahead + 2).toNat)) (y := none) (by omega) hx (Or.inr rfl)
  exact ⟨o', by unfold plan; rw [hds]; simp [h1], h2⟩

/-! ## The lists of the platforms -/

theorem takeAll_forall {P : Nat → List Event → Prop} {platform : Nat} {start : Int}
    (hadd : ∀ s i n, P platform s → P platform (add ⟨i, .start, start, n⟩ s)) : ∀ {mats : List Mat} {p p' : Platforms},
    (∀ pl m s, p.states (pl, m) = some s → P pl s) → p.takeAll platform start mats = some p' →
    ∀ pl m s, p'.states (pl, m) = some s → P pl s := by
  intro mats
  induction mats with
  | nil => intro p p' hp h; simp [Platforms.takeAll] at h; subst h; exact hp
  | cons x xs ih =>
    intro p p' hp h
    unfold Platforms.takeAll at h
    simp only [Option.bind_eq_some_iff] at h
    obtain ⟨p1, h1, h2⟩ := h
    unfold Platforms.take at h1
    simp only [Option.bind_eq_some_iff, Option.map_eq_some_iff] at h1
    obtain ⟨s0, hs0, e, he, rfl⟩ := h1
    refine ih ?_ h2
    intro pl m s hs
    dsimp only at hs
    by_cases hk : (pl, m) = (platform, x.name)
    · rw [hk] at hs
      simp at hs; subst hs
      simp only [Prod.mk.injEq] at hk
      rw [hk.1]
      exact hadd _ _ _ (hp _ _ _ hs0)
    · rw [Function.update_of_ne hk] at hs
      exact hp _ _ _ hs

/-- Sorted by time, and no event has its key after its time. -/
def Tidy (s : List Event) : Prop := (s.Pairwise fun a b => a.key ≤ b.key) ∧ ∀ e ∈ s, e.key ≤ e.time

theorem mem_add {e x : Event} {s : List Event} : x ∈ add e s ↔ x = e ∨ x ∈ s := by
  induction s with
  | nil => simp [Momentum.add]
  | cons y ys ih =>
    unfold Momentum.add
    split
    · simp only [List.mem_cons, ih]; tauto
    · simp only [List.mem_cons]

theorem keyLe_key {a b : Event} : keyLe a b = true → a.key ≤ b.key := by
  unfold Momentum.keyLe
  intro h
  simp only [Bool.or_eq_true, decide_eq_true_eq, Bool.and_eq_true, beq_iff_eq] at h
  omega

theorem not_keyLe_key {a b : Event} : ¬ keyLe a b = true → b.key ≤ a.key := by
  unfold Momentum.keyLe
  intro h
  simp only [Bool.or_eq_true, decide_eq_true_eq, Bool.and_eq_true, beq_iff_eq] at h
  omega

theorem Tidy.add {s : List Event} (h : Tidy s) {e : Event} (he : e.key ≤ e.time) : Tidy (add e s) := by
  refine ⟨?_, fun x hx => ?_⟩
  · have hs := h.1
    clear h he
    induction s with
    | nil => simp [Momentum.add]
    | cons y ys ih =>
      rw [List.pairwise_cons] at hs
      unfold Momentum.add
      split
      · rename_i hk
        rw [List.pairwise_cons]
        refine ⟨fun x hx => ?_, ih hs.2⟩
        rcases mem_add.mp hx with rfl | hx
        · exact keyLe_key hk
        · exact hs.1 x hx
      · rename_i hk
        rw [List.pairwise_cons]
        refine ⟨fun x hx => ?_, List.pairwise_cons.mpr hs⟩
        have := not_keyLe_key hk
        rcases List.mem_cons.mp hx with rfl | hx
        · exact this
        · exact Int.le_trans this (hs.1 x hx)
  · rcases mem_add.mp hx with rfl | hx
    · exact he
    · exact h.2 x hx

/-- The lists of the platforms after a history are sorted, and their events are not later than the works served. -/
theorem history_tidy {l : Land} {st : State} {log : List Served} (h : History l st log) :
    ∀ pl m s, st.platforms.states (pl, m) = some s → Tidy s ∧
      ∀ T, 0 ≤ T → (∀ sv ∈ log, l.platform sv.work.id = pl → sv.time ≤ T) → ∀ x ∈ s, x.key ≤ T ∧ x.time ≤ T := by
  induction h with
  | fresh =>
    intro pl m s hs
    simp only [State.init, Platforms.init] at hs
    split at hs
    · simp only [Option.map_eq_some_iff] at hs
      obtain ⟨c, _, rfl⟩ := hs
      refine ⟨⟨by simp [fresh], by simp [fresh, Event.key]⟩, fun T hT _ x hx => ?_⟩
      simp [fresh] at hx; subst hx
      simp [Event.key]; omega
    · simp at hs
  | serve hh hd hdel ih =>
    rename_i st log w deadline out
    have keep : ∀ pl m s, st.platforms.states (pl, m) = some s → Tidy s ∧
        ∀ T, 0 ≤ T → (∀ sv ∈ (⟨w, deadline, out.records, out.time, out.booked⟩ : Served) :: log,
          l.platform sv.work.id = pl → sv.time ≤ T) → ∀ x ∈ s, x.key ≤ T ∧ x.time ≤ T := by
      intro pl m s hs
      exact ⟨(ih pl m s hs).1, fun T hT hall => (ih pl m s hs).2 T hT fun sv hsv => hall sv (by simp [hsv])⟩
    have step : ∀ {mats : List Mat}, st.platforms.takeAll (l.platform w.id) out.time mats = some out.state.platforms →
        ∀ pl m s, out.state.platforms.states (pl, m) = some s → Tidy s ∧
        ∀ T, 0 ≤ T → (∀ sv ∈ (⟨w, deadline, out.records, out.time, out.booked⟩ : Served) :: log,
          l.platform sv.work.id = pl → sv.time ≤ T) → ∀ x ∈ s, x.key ≤ T ∧ x.time ≤ T := by
      intro mats ht
      refine takeAll_forall (P := fun pl s => Tidy s ∧
        ∀ T, 0 ≤ T → (∀ sv ∈ (⟨w, deadline, out.records, out.time, out.booked⟩ : Served) :: log,
          l.platform sv.work.id = pl → sv.time ≤ T) → ∀ x ∈ s, x.key ≤ T ∧ x.time ≤ T) ?_ keep ht
      intro s i n hP
      refine ⟨hP.1.add (by simp [Event.key]), fun T hT hall x hx => ?_⟩
      rcases mem_add.mp hx with rfl | hx
      · have := hall _ (List.mem_cons_self ..) rfl
        dsimp only at this
        simpa [Event.key] using this
      · exact hP.2 T hT hall x hx
    rcases deliver_platform hdel with ⟨_, h1, _⟩ | ⟨_, _, _, h4, h1 | ⟨_, h1⟩⟩ | ⟨req, _, _, hreq, o, use, hp, hu, h1, _, h6⟩
    · rw [h1]; exact keep
    · rw [← h4] at h1; exact step h1
    · rw [h1]; exact keep
    · rw [← h6] at h1; exact step h1

/-! ## Readiness -/

theorem lastTimes_ge {p : Platforms} {platform : Nat} : ∀ {ms : List Mat} {t u : Int}, lastTimes p platform t ms = some u → t ≤ u
  | [], t, u, h => by simp [lastTimes] at h; omega
  | m :: ms, t, u, h => by
    unfold lastTimes at h
    simp only [Option.bind_eq_some_iff] at h
    obtain ⟨e, _, h⟩ := h
    have := lastTimes_ge h
    omega

theorem lastTimes_last {p : Platforms} {platform : Nat} : ∀ {ms : List Mat} {t u : Int}, lastTimes p platform t ms = some u →
    ∀ m ∈ ms, ∃ s e, p.states (platform, m.name) = some s ∧ s.getLast? = some e ∧ e.time ≤ u
  | [], _, _, _ => by simp
  | m :: ms, t, u, h => by
    unfold lastTimes at h
    simp only [Option.bind_eq_some_iff] at h
    obtain ⟨e, ⟨s, hs, he⟩, h⟩ := h
    intro q hq
    rcases List.mem_cons.mp hq with rfl | hq
    · exact ⟨s, e, hs, he, by have := lastTimes_ge h; omega⟩
    · exact lastTimes_last h q hq

theorem Tidy.le_last {s : List Event} (h : Tidy s) {e x : Event} (he : s.getLast? = some e) (hx : x ∈ s) : x.key ≤ e.time := by
  have hmem : e ∈ s := List.mem_of_getLast? he
  obtain ⟨ys, rfl⟩ : ∃ ys, s = ys ++ [e] := by
    have hne : s ≠ [] := by intro h0; rw [h0] at he; simp at he
    refine ⟨s.dropLast, ?_⟩
    rw [List.getLast?_eq_some_getLast hne, Option.some.injEq] at he
    rw [← he]; exact (List.dropLast_append_getLast hne).symm
  have h1 := h.2 e hmem
  rcases List.mem_append.mp hx with hx | hx
  · have := (List.pairwise_append.mp h.1).2.2 x hx e (by simp)
    omega
  · simp at hx; subst hx; exact h1

/-- The storage is quiet from `t` on: no event of any of the materials is later. -/
def Quiet (p : Platforms) (platform : Nat) (t : Int) (ms : List Mat) : Prop :=
  ∀ m ∈ ms, ∃ s, p.states (platform, m.name) = some s ∧ ∀ e ∈ s, e.key ≤ t

theorem calm_some {p : Platforms} {platform : Nat} {time : Int} : ∀ {needs : List Mat} {b : Bool},
    calm p platform time needs = some b → (∀ m ∈ needs, ∃ s, p.states (platform, m.name) = some s) ∧
      (b = false → ∃ m ∈ needs, ∃ s, p.states (platform, m.name) = some s ∧ ∃ e ∈ s, time < e.key) := by
  intro needs b
  unfold calm
  suffices hgen : ∀ (c b : Bool), needs.foldl (fun r m => r.bind fun b => (p.states (platform, m.name)).map fun s =>
      b && decide ((s.filter fun e => time < e.key).length ≤ 1)) (some c) = some b →
      (∀ m ∈ needs, ∃ s, p.states (platform, m.name) = some s) ∧
      (b = false → c = false ∨ ∃ m ∈ needs, ∃ s, p.states (platform, m.name) = some s ∧ ∃ e ∈ s, time < e.key) by
    intro h
    obtain ⟨h1, h2⟩ := hgen true b h
    exact ⟨h1, fun hb => (h2 hb).resolve_left (by simp)⟩
  induction needs with
  | nil => intro c b h; simp at h; subst h; exact ⟨by simp, fun h => Or.inl h⟩
  | cons m ms ih =>
    intro c b h
    rw [List.foldl_cons] at h
    cases hs : p.states (platform, m.name) with
    | none =>
      rw [hs] at h
      simp only [Option.bind_some, Option.map_none] at h
      exfalso
      have : ∀ (xs : List Mat), xs.foldl (fun r m => r.bind fun b => (p.states (platform, m.name)).map fun s =>
        b && decide ((s.filter fun e => time < e.key).length ≤ 1)) (none : Option Bool) = none := by
        intro xs
        induction xs with
        | nil => rfl
        | cons x xs ih => rw [List.foldl_cons]; exact ih
      rw [this] at h; simp at h
    | some s =>
      rw [hs] at h
      simp only [Option.bind_some, Option.map_some] at h
      obtain ⟨h1, h2⟩ := ih _ _ h
      refine ⟨fun q hq => ?_, fun hb => ?_⟩
      · rcases List.mem_cons.mp hq with rfl | hq
        · exact ⟨s, hs⟩
        · exact h1 q hq
      · rcases h2 hb with h2 | ⟨q, hq, h2⟩
        · by_cases hc : c = false
          · exact Or.inl hc
          · right
            simp only [Bool.not_eq_false] at hc
            subst hc
            simp only [Bool.true_and, decide_eq_false_iff_not, not_le] at h2
            refine ⟨m, by simp, s, hs, ?_⟩
            obtain ⟨e, he⟩ := List.exists_mem_of_length_pos (by omega : 0 < (s.filter fun e => time < e.key).length)
            have := List.mem_filter.mp he
            exact ⟨e, this.1, by simpa using this.2⟩
        · exact Or.inr ⟨q, by simp [hq], h2⟩

theorem lastAt_later {s : List Event} {t u : Int} (h : ∀ e ∈ s, e.key ≤ t) (hu : t ≤ u) : lastAt s u = lastAt s t := by
  rw [lastAt_all h, lastAt_all fun e he => Int.le_trans (h e he) hu]

theorem request_later {l : Land} {p : Platforms} {platform : Nat} {t u : Int} (hu : t ≤ u) : ∀ {ms : List Mat},
    Quiet p platform t ms → request l p platform u ms = request l p platform t ms
  | [], _ => rfl
  | m :: ms, h => by
    obtain ⟨s, hs, hk⟩ := h m (by simp)
    have hr := request_later hu (l := l) (p := p) (platform := platform) (ms := ms) (fun q hq => h q (by simp [hq]))
    simp only [request, hs, Option.bind_some, lastAt_later hk hu, hr]

theorem calm_quiet {p : Platforms} {platform : Nat} {t : Int} {ms : List Mat} (h : Quiet p platform t ms) :
    calm p platform t ms = some true := by
  cases hc : calm p platform t ms with
  | some b => rw [calm_true h hc]
  | none =>
    exfalso
    revert hc
    unfold calm
    suffices hgen : ∀ b : Bool, ms.foldl (fun r m => r.bind fun b => (p.states (platform, m.name)).map fun s =>
      b && decide ((s.filter fun e => t < e.key).length ≤ 1)) (some b) ≠ none from hgen true
    induction ms with
    | nil => intro b; simp
    | cons m ms ih =>
      intro b
      obtain ⟨s, hs, _⟩ := h m (by simp)
      rw [List.foldl_cons, hs]
      simp only [Option.bind_some, Option.map_some]
      exact ih (fun q hq => h q (by simp [hq])) _

theorem Quiet.mono {p : Platforms} {platform : Nat} {t u : Int} {ms : List Mat} (h : Quiet p platform t ms) (hu : t ≤ u) :
    Quiet p platform u ms := by
  intro m hm
  obtain ⟨s, hs, hk⟩ := h m hm
  exact ⟨s, hs, fun e he => Int.le_trans (hk e he) hu⟩

theorem supplyTime_ge {l : Land} {tl : Timeline} {platform : Nat} {t u : Int} {mats : List Mat}
    (h : supplyTime l tl platform t mats = some u) : t ≤ u := by
  unfold supplyTime at h
  split at h
  · cases h; exact Int.le_refl _
  · simp only [Option.map_eq_some_iff] at h
    obtain ⟨o, ho, rfl⟩ := h
    obtain ⟨_, _, _, hle, _⟩ := plan_spec ho
    exact hle

theorem findMin_cases {l : Land} {st : State} {w : Work} {t u : Int} (h : findMin l st w t = some u) :
    ((w.needs = [] ∨ w.service = true) ∧ u = t) ∨
    ¬ (w.needs = [] ∨ w.service = true) ∧ ∃ ok t' req, calm st.platforms (l.platform w.id) t w.needs = some ok ∧
      (if ok then some t else lastTimes st.platforms (l.platform w.id) t w.needs) = some t' ∧
      request l st.platforms (l.platform w.id) t' w.needs = some req ∧
      supplyTime l st.supply (l.platform w.id) t' req = some u := by
  unfold findMin at h
  split at h
  · rename_i hc
    cases h; exact Or.inl ⟨hc.symm, rfl⟩
  · rename_i hc
    right
    refine ⟨fun hh => hc hh.symm, ?_⟩
    unfold findReady at h
    simp only [Option.bind_eq_some_iff, Option.map_eq_some_iff] at h
    obtain ⟨r, ⟨ok, hok, t', ht', req, hreq, rfl⟩, h⟩ := h
    refine ⟨ok, t', req, hok, ht', hreq, ?_⟩
    dsimp only at h
    split at h
    · rename_i hr
      unfold supplyTime
      rw [if_pos hr]; exact h
    · exact h

end Sampo.Supply
