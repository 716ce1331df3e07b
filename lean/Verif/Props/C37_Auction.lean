import Verif.Props.C36_BlockGraph

/-!
# C37: auctions of blocks
-/

namespace Sampo.C37

open Blocks BlockGraph

variable {τ ρ : Type}

/-- The winner of an auction is the first of the agents whose offers have the smallest finish; that offer is finite, and
one more offer of the winner is the result.  (Agents are asked one after the other: `os` are their offers.) -/
theorem winner_is_best {offer : Offering τ ρ} {agents agents' : List (Agent τ)} {block : Nat} {parent : Int} {r r' : ρ}
    {winner : Agent τ} {result : Offer τ} (h : runAuction offer agents block parent r = some (winner, result, agents', r')) :
    ∃ pre o post, (offers offer block parent agents r).1 = pre ++ (winner, o) :: post ∧ o.finish < timeInf ∧
      (∀ x ∈ pre, o.finish < x.2.finish) ∧ (∀ x ∈ post, o.finish ≤ x.2.finish) ∧
      ∃ r1, result = (offer winner.name winner.timeline block parent r1).1 := by
  unfold runAuction at h
  dsimp only at h
  obtain ⟨w, hw, he⟩ := Option.map_eq_some_iff.mp h
  obtain ⟨rfl, h1⟩ := Prod.mk.inj he
  obtain ⟨h2, _⟩ := Prod.mk.inj h1
  rcases choose_spec (offers offer block parent agents r).1 none timeInf with ⟨h3, _⟩ | ⟨pre, a, o, post, h3, h4, h5, h6, h7⟩
  · rw [h3] at hw; cases hw
  · rw [h4] at hw
    obtain rfl : a = w := Option.some.inj hw
    exact ⟨pre, o, post, h3, h5, h6, h7, _, h2.symm⟩

/-- The offers are those of all agents, in their order. -/
theorem all_asked (offer : Offering τ ρ) (agents : List (Agent τ)) (block : Nat) (parent : Int) (r : ρ) :
    (offers offer block parent agents r).1.map (·.1) = agents := offers_agents offer block parent agents r

/-- An auction fails only if no offer is finite. -/
theorem auction_fails_iff (offer : Offering τ ρ) (agents : List (Agent τ)) (block : Nat) (parent : Int) (r : ρ) :
    runAuction offer agents block parent r = none ↔
      ∀ x ∈ (offers offer block parent agents r).1, timeInf ≤ x.2.finish := by
  unfold runAuction
  dsimp only
  rw [Option.map_eq_none_iff]
  rcases choose_spec (offers offer block parent agents r).1 none timeInf with ⟨h3, h4⟩ | ⟨pre, a, o, post, h3, h4, h5, _⟩
  · rw [h3]; exact ⟨fun _ => h4, fun _ => rfl⟩
  · rw [h4]
    refine ⟨fun h => (by cases h), fun h => ?_⟩
    have := h (a, o) (by rw [h3]; simp)
    dsimp only at this
    omega

/-- If agents make the same offer whenever they are asked the same (their schedulers are not random), the times of the result
are those of the best offer: finite, and no agent offers an earlier finish. -/
theorem result_is_best {offer : Offering τ ρ} {agents agents' : List (Agent τ)} {block : Nat} {parent : Int} {r r' : ρ}
    {winner : Agent τ} {result : Offer τ} {f : Agent τ → Offer τ}
    (hf : ∀ a r, (offer (Agent.name a) a.timeline block parent r).1 = f a)
    (h : runAuction offer agents block parent r = some (winner, result, agents', r')) :
    winner ∈ agents ∧ result = f winner ∧ result.finish < timeInf ∧ ∀ a ∈ agents, result.finish ≤ (f a).finish := by
  obtain ⟨pre, o, post, h1, h2, h3, h4, r1, h5⟩ := winner_is_best h
  rw [hf] at h5
  rw [offers_steady hf] at h1
  have hmem : (winner, o) ∈ agents.map fun a => (a, f a) := by rw [h1]; simp
  obtain ⟨a, ha, he⟩ := List.mem_map.mp hmem
  obtain ⟨rfl, rfl⟩ := Prod.mk.inj he
  refine ⟨ha, h5, by rw [h5]; exact h2, fun b hb => ?_⟩
  have hb' : (b, f b) ∈ agents.map fun a => (a, f a) := List.mem_map.mpr ⟨b, hb, rfl⟩
  rw [h1] at hb'
  rw [h5]
  rcases List.mem_append.mp hb' with h6 | h6
  · exact le_of_lt (h3 _ h6)
  · rcases List.mem_cons.mp h6 with h6 | h6
    · rw [(Prod.mk.inj h6).2]
    · exact h4 _ h6

/-- Only the winner gets the block: the timelines and last finishes of the others stay as they are. -/
theorem only_winner_changes {offer : Offering τ ρ} {agents agents' : List (Agent τ)} {block : Nat} {parent : Int} {r r' : ρ}
    {winner : Agent τ} {result : Offer τ} (h : runAuction offer agents block parent r = some (winner, result, agents', r')) :
    agents'.length = agents.length ∧ ∀ (i : Nat) (a a' : Agent τ), agents[i]? = some a → agents'[i]? = some a' →
      a'.name = a.name ∧ (a.name ≠ winner.name → a'.timeline = a.timeline ∧ a'.last = a.last) ∧
      (a.name = winner.name → a'.timeline = some result.timeline ∧ a'.last = result.finish) := by
  unfold runAuction at h
  dsimp only at h
  obtain ⟨w, hw, he⟩ := Option.map_eq_some_iff.mp h
  obtain ⟨rfl, h1⟩ := Prod.mk.inj he
  obtain ⟨h2, h3⟩ := Prod.mk.inj h1
  obtain ⟨h4, _⟩ := Prod.mk.inj h3
  rw [← h4, h2]
  refine ⟨List.length_map _, fun i a a' hi hi' => ?_⟩
  rw [List.getElem?_map, hi] at hi'
  obtain rfl := Option.some.inj hi'
  dsimp only
  by_cases hn : a.name = w.name
  · rw [if_neg (not_not_intro hn)]
    exact ⟨rfl, fun h => absurd hn h, fun _ => ⟨rfl, rfl⟩⟩
  · rw [if_pos hn]
    exact ⟨rfl, fun _ => ⟨rfl, rfl⟩, fun h => absurd h hn⟩

variable {σ : Type} {p : Plan}

/-- Whatever the auctions do (also those of the other managers): if all blocks get scheduled, every block is scheduled once, and
every block starts strictly after each block it depends on has finished, if that finish is finite. -/
theorem starts_after_dependencies (hp : p.Valid) {auction : Nat → Int → σ → Option (Nat × Int × Int × σ)} {s s' : σ}
    {res : List SBlock} (h : manageBlocks auction p.blocks.length p.graph s = some (res, s')) :
    (res.map (·.id)).Nodup ∧ (∀ b, b ∈ res.map (·.id) ↔ b ∈ p.blocks) ∧
    ∀ x ∈ res, ∀ y ∈ res, (x.id, y.id) ∈ p.edges → -TIME_INF ≤ x.finish → x.finish < TIME_INF → x.finish < y.start := by
  obtain ⟨order, h1, h2, h3, _⟩ := C36.order_respects hp
  unfold manageBlocks at h
  rw [h1, Option.bind_some] at h
  obtain ⟨ext, h5, h6, h7⟩ := manageLoop_spec h
  rw [List.nil_append] at h5
  subst h5
  have hnd : (res.map (·.id)).Nodup := by rw [h6]; exact h2
  refine ⟨hnd, fun b => by rw [h6]; exact h3 b, fun x hx y hy hxy hl hf => ?_⟩
  obtain ⟨pre, post, he⟩ := List.append_of_mem hy
  obtain ⟨q, hq, hle⟩ := h7 pre y post he x.id (mem_from.mpr hxy)
  rw [List.nil_append] at hq
  have : lookup res x.id = some q := by rw [he]; exact lookup_append hq _
  rw [lookup_nodup hnd hx] at this
  obtain rfl := Option.some.inj this
  have : tAdd x.finish 1 = x.finish + 1 := mkTime_of_isTime ⟨by omega, by omega⟩
  omega

/-- If auctions succeed and honour the time given to them, all blocks get scheduled.  `I` may be anything that holds in the
beginning and stays true, for example that the times so far are far from infinity. -/
theorem blocks_scheduled (hp : p.Valid) {auction : Nat → Int → σ → Option (Nat × Int × Int × σ)}
    {I : List SBlock → σ → Prop} (ha : ∀ b t done s, I done s → parentTime done (p.graph.from_ b) = some t →
      ∃ r, auction b t s = some r ∧ t ≤ r.2.1 ∧ I (done ++ [⟨b, r.1, r.2.1, r.2.2.1⟩]) r.2.2.2) {s : σ} (hs : I [] s) :
    ∃ res, manageBlocks auction p.blocks.length p.graph s = some res := by
  obtain ⟨order, h1, h2, h3, h4⟩ := C36.order_respects hp
  unfold manageBlocks
  rw [h1, Option.bind_some]
  apply manageLoop_ends ha hs
  intro pre x post he q hq
  right
  have hqx := mem_from.mp hq
  have hm : q ∈ order := (h3 q).mpr (hp.known _ hqx).1
  rw [he] at hm h4
  rcases List.mem_append.mp hm with hm | hm
  · exact hm
  · exfalso
    rcases List.mem_cons.mp hm with rfl | hm
    · exact hp.acyclic q (.single hqx)
    · have := (List.pairwise_append.mp h4).2.1
      exact (List.pairwise_cons.mp this).1 q hm hqx

/-- The result passes the check of block dependencies of the program, if auctions give blocks finite times and no negative
durations. -/
theorem check_passes (hp : p.Valid) {auction : Nat → Int → σ → Option (Nat × Int × Int × σ)} {s s' : σ} {res : List SBlock}
    (h : manageBlocks auction p.blocks.length p.graph s = some (res, s'))
    (hr : ∀ x ∈ res, -TIME_INF ≤ x.finish ∧ x.finish < TIME_INF ∧ x.start ≤ x.finish) : checkDependencies p.graph res = true := by
  obtain ⟨h1, h2, h3⟩ := starts_after_dependencies hp h
  unfold checkDependencies
  rw [List.all_eq_true]
  intro y hy
  rw [List.all_eq_true]
  intro q hq
  have hqy := mem_from.mp hq
  obtain ⟨x, hx⟩ := lookup_some ((h2 q).mpr (hp.known _ hqy).1)
  obtain ⟨hxm, rfl⟩ := lookup_mem hx
  rw [hx]
  have hx' := hr x hxm
  have := h3 x hxm y hy hqy hx'.1 hx'.2.1
  have hy' := hr y hy
  simp only [Bool.and_eq_true, decide_eq_true_eq]
  omega

/-- What the check of block dependencies says about any list of scheduled blocks with different ids: it passes exactly if every
parent of a block is scheduled, ends no later than the block starts, and neither has a negative duration. -/
theorem check_meaning (p : Plan) {blocks : List SBlock} (hn : (blocks.map (·.id)).Nodup) : checkDependencies p.graph blocks = true ↔
    ∀ y ∈ blocks, ∀ q, (q, y.id) ∈ p.edges → ∃ x ∈ blocks, x.id = q ∧ x.start ≤ x.finish ∧ x.finish ≤ y.start ∧ y.start ≤ y.finish := by
  unfold checkDependencies
  rw [List.all_eq_true]
  refine forall₂_congr fun y hy => ?_
  rw [List.all_eq_true]
  refine forall_congr' fun q => ?_
  refine imp_congr mem_from ?_
  constructor
  · intro h
    cases hl : lookup blocks q with
    | none => rw [hl] at h; cases h
    | some x =>
      rw [hl] at h
      simp only [Bool.and_eq_true, decide_eq_true_eq] at h
      obtain ⟨hx, rfl⟩ := lookup_mem hl
      exact ⟨x, hx, rfl, h.1.1, h.1.2, h.2⟩
  · rintro ⟨x, hx, rfl, h1, h2, h3⟩
    rw [lookup_nodup hn hx]
    simp only [Bool.and_eq_true, decide_eq_true_eq]
    exact ⟨⟨h1, h2⟩, h3⟩

/-! ### An example: two agents, of which one needs 5 and the other one 3 units per block but is busy until 10 -/

private def demo : Plan := ⟨[0, 1, 2], [(0, 2), (1, 2)]⟩

private def demoOffer : Offering Int Unit := fun name tl _ parent r =>
  let start := max parent (tl.getD (if name = 0 then 0 else 10))
  let finish := start + if name = 0 then 5 else 3
  (⟨start, finish, finish⟩, r)

example : (manageBlocks (managerAuction demoOffer) 3 demo.graph ([⟨0, none, 0, 0⟩, ⟨1, none, 0, 0⟩], ())).map (·.1) =
    some [⟨1, 0, 1, 6⟩, ⟨0, 0, 6, 11⟩, ⟨2, 1, 12, 15⟩] := by decide

/-- Auctions that always give the time asked for. -/
example (p : Plan) (hp : p.Valid) : ∃ res, manageBlocks (fun _ t (_ : Unit) => some (0, t, t + 1, ())) p.blocks.length p.graph () =
    some res :=
  blocks_scheduled hp (I := fun _ _ => True) (fun _ t _ _ _ _ => ⟨_, rfl, le_refl t, trivial⟩) trivial

example (a : Agent Int) (b : Nat) (t : Int) (r : Unit) : (demoOffer a.name a.timeline b t r).1 =
    (demoOffer a.name a.timeline b t ()).1 := rfl

end Sampo.C37
