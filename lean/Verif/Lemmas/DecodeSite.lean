import Verif.Model.DecodeSite
import Verif.Lemmas.Decode
import Verif.Lemmas.ZoneSite
import Verif.Lemmas.MatSite

/-! Zones and materials in schedules decoded from chromosomes. -/

namespace Sampo.Decode

variable {τ σ : Type}

/-- What a placement does. -/
theorem place_parts {D : Input σ} {E : Env σ} {st : JIT.State σ} {it : Item} {t : Int} {r : JIT.State σ × Int}
    (h : place D E st it t = some r) :
    ∃ team es x, startOf D E st.env it t = some es ∧ es.2 = r.2 ∧
      JIT.placeChain E team it.contractor (chainTimes D (E.chain it.node) it.exec) (E.chain it.node) es.2 es.1 st.sched = some x ∧
      r.1.sched = x.2.2 ∧ E.occupy x.2.1 it.node es.2 (x.1 - es.2) = some r.1.env := by
  unfold place at h
  simp only [Option.bind_eq_some_iff, Option.map_eq_some_iff] at h
  obtain ⟨team, -, es, hes, st', hst', rfl⟩ := h
  simp only [JIT.scheduleAt, Option.bind_eq_some_iff, Option.map_eq_some_iff] at hst'
  obtain ⟨x, hx, tl', -, env', henv, rfl⟩ := hst'
  exact ⟨team, es, x, hes, rfl, hx, rfl, henv⟩

/-- A moment at which a work is allowed is not negative. -/
theorem canNow_nonneg {D : Input σ} {E : Env σ} {st : JIT.State σ} {it : Item} {t : Int} (h : canNow D E st it t = some true)
    (hind : D.independent it.node = false) : 0 ≤ t := by
  obtain ⟨-, -, ⟨m, hm, h1⟩, -⟩ := canNow_parents h hind
  have := JIT.findMinStart_le hm
  omega

section zones

variable {base : Env τ} {cfg : Zone.Config} {zones : Nat → List Zone.Req} {D : Input (ZoneSite.State τ)}

open ZoneSite

theorem _root_.Sampo.ZoneSite.Held.mono {chain : Nat → List Nat} {done done' : List Nat} {sched : Sched} {env : ZoneSite.State τ}
    (h : Held cfg zones chain done sched env) (hd : ∀ a ∈ done, a ∈ done') : Held cfg zones chain done' sched env := by
  obtain ⟨n, us, h1, h2, h3⟩ := h
  refine ⟨n, us, h1, h2, fun e he => ?_⟩
  obtain ⟨k, hk, h4⟩ := h3 e he
  exact ⟨k, hd k hk, h4⟩

theorem place_held (hz : ∀ s v t e, D.zoneOk s v t e = Zone.canSchedule cfg.costs s.zones (zones v) t e)
    (hn : ∀ v, ((zones v).map (·.zone)).Nodup) (hv : ∀ v, v ∈ base.chain v) (hest : ∀ v team, 0 ≤ base.estimate v team)
    (hP : 0 ≤ D.parentTime) {st : JIT.State (ZoneSite.State τ)} {it : Item} {t : Int} {r : JIT.State (ZoneSite.State τ) × Int}
    (hind : D.independent it.node = false) (hts : GoodTimes D (site base cfg zones) it) (h0 : it.idx = 0 → zones it.node = [])
    (hok : canNow D (site base cfg zones) st it t = some true) (hp : place D (site base cfg zones) st it t = some r) {done : List Nat}
    (hh : Held cfg zones base.chain done st.sched st.env) : Held cfg zones base.chain (done ++ [it.node]) r.1.sched r.1.env := by
  obtain ⟨team, es, x, hes, -, hx, e1, henv⟩ := place_parts hp
  have ht := canNow_nonneg hok hind
  have hgr := (canNow_parents hok hind).2.2.2.2
  rw [hz] at hgr
  have main : es.1 = st.env ∧ (es.2 = t ∨ it.idx = 0) := by
    unfold startOf at hes
    split at hes
    · obtain ⟨z, hz, rfl⟩ := Option.map_eq_some_iff.1 hes
      obtain ⟨y, hy, rfl⟩ := Option.map_eq_some_iff.1 hz
      have := finish_zero hy
      refine ⟨rfl, .inl ?_⟩
      dsimp only
      omega
    · cases hes
      refine ⟨rfl, ?_⟩
      dsimp only
      split <;> simp_all
  obtain ⟨z1, z2⟩ := jit_placeChain_env hx
  have hlen : 1 ≤ (base.chain it.node).length := List.length_pos_of_mem (hv it.node)
  have hlen' : ((site base cfg zones).chain it.node).length = (base.chain it.node).length := rfl
  have hrow := JIT.placeChain_row (E := site base cfg zones) (fun v => hest v _) hts hx
  rw [e1]
  refine held_step (hn _) hh hrow (by rw [z1, main.1]) (by rw [z2, main.1]; omega) henv fun _ => ?_
  rcases main.2 with h | h
  · rw [h]
    exact .inr ⟨_, ht, hgr⟩
  · rw [h0 h]
    by_cases h2 : 0 ≤ es.2
    · exact .inr ⟨0, h2, rfl⟩
    · exfalso
      unfold startOf at hes
      split at hes
      · obtain ⟨z, hz, rfl⟩ := Option.map_eq_some_iff.1 hes
        dsimp only at h2
        omega
      · cases hes
        exact h2 hP

theorem parallel_held (hz : ∀ s v t e, D.zoneOk s v t e = Zone.canSchedule cfg.costs s.zones (zones v) t e)
    (hn : ∀ v, ((zones v).map (·.zone)).Nodup) (hv : ∀ v, v ∈ base.chain v) (hest : ∀ v team, 0 ≤ base.estimate v team)
    (hP : 0 ≤ D.parentTime) (hind : ∀ v, D.independent v = false)
    (hts : ∀ idx, ∀ i ∈ D.order, ∀ it, decode D (site base cfg zones) idx i = some it → GoodTimes D (site base cfg zones) it)
    (h0 : ∀ i, D.order[0]? = some i → zones (D.node i) = []) {inf : Int} {fuel : Nat} {mat : τ} {L : Loop (ZoneSite.State τ)}
    (h : parallel D (site base cfg zones) inf (fresh mat cfg) fuel = some (some L)) :
    ∃ done, Held cfg zones base.chain done L.st.sched L.st.env ∧ (done ++ L.items.map (·.node)).Perm (D.order.map D.node) := by
  have := parallel_inv (Inv := fun l st => (∃ done, Held cfg zones base.chain done st.sched st.env ∧
    (done ++ l.map (·.node)).Perm (D.order.map D.node)) ∧
    ∀ it ∈ l, GoodTimes D (site base cfg zones) it ∧ (it.idx = 0 → zones it.node = [])) ?_ ?_ ?_ h
  · exact this.1
  · rintro l l' st hp ⟨⟨done, h1, h2⟩, h3⟩
    exact ⟨⟨done, h1, ((hp.map _).symm.append_left done).trans h2⟩, fun it hit => h3 it (hp.mem_iff.mpr hit)⟩
  · rintro t it l st r hok hp ⟨⟨done, h1, h2⟩, h3⟩
    obtain ⟨h4, h5⟩ := h3 it (by simp)
    exact ⟨⟨done ++ [it.node], place_held hz hn hv hest hP (hind _) h4 h5 hok hp h1, by simpa using h2⟩, fun x hx => h3 x (by simp [hx])⟩
  · intro items hi
    obtain ⟨h1, h2⟩ := decodeAll_mem hi
    refine ⟨⟨[], held_fresh mat _, by simp [h1]⟩, fun it hit => ?_⟩
    obtain ⟨j, i, h3, h4⟩ := h2 it hit
    refine ⟨hts _ i (List.mem_of_getElem? h3) it h4, fun hidx => ?_⟩
    simp only [decode, Option.map_eq_some_iff] at h4
    obtain ⟨team, -, rfl⟩ := h4
    dsimp only at hidx ⊢
    have : j = 0 := by omega
    subst this
    exact h0 i h3

end zones

section materials

variable {D : Input σ} {E : Env σ} {land : Supply.Land} {needs : Nat → List Supply.Mat}
  {view : σ → Supply.State × List Supply.Served}

open MatSite

theorem parallel_kept (hs : Supplied E land needs view) (hl : ∀ {s v t s' t'}, E.deliver s v t = some (s', t') → t ≤ t')
    (hest : ∀ v team, 0 ≤ E.estimate v team) (hP : 0 ≤ D.parentTime) (hind : ∀ v, D.independent v = false)
    (hts : ∀ idx, ∀ i ∈ D.order, ∀ it, decode D E idx i = some it → GoodTimes D E it) {inf : Int} {fuel : Nat} {env : σ}
    (hk : Kept E land needs (view env) []) {L : Loop σ}
    (h : parallel D E inf env fuel = some (some L)) : Kept E land needs (view L.st.env) L.st.sched := by
  have := parallel_inv (Inv := fun l st => Kept E land needs (view st.env) st.sched ∧ ∀ it ∈ l, GoodTimes D E it) ?_ ?_ ?_ h
  · exact this.1
  · rintro l l' st hp ⟨h1, h2⟩
    exact ⟨h1, fun it hit => h2 it (hp.mem_iff.mpr hit)⟩
  · rintro t it l st r hok hp ⟨h1, h2⟩
    refine ⟨?_, fun x hx => h2 x (by simp [hx])⟩
    obtain ⟨team, es, x, hes, -, hx, e1, henv⟩ := place_parts hp
    have ht := canNow_nonneg hok (hind _)
    have hes' : view es.1 = view st.env ∧ 0 ≤ es.2 := by
      unfold startOf at hes
      split at hes
      · obtain ⟨z, hz, rfl⟩ := Option.map_eq_some_iff.1 hes
        exact ⟨(hs.finish hz :), by dsimp only; omega⟩
      · cases hes
        refine ⟨rfl, ?_⟩
        dsimp only
        split <;> omega
    rw [e1, hs.occupy henv]
    exact jit_placeChain_kept hs hl (fun v => hest v _) (h2 it (by simp)) hes'.2 (by rw [hes'.1]; exact h1) hx
  · intro items hi
    obtain ⟨h1, h2⟩ := decodeAll_mem hi
    refine ⟨hk, fun it hit => ?_⟩
    obtain ⟨j, i, h3, h4⟩ := h2 it hit
    exact hts _ i (List.mem_of_getElem? h3) it h4

end materials

end Sampo.Decode
