import Verif.Props.C65_Table
import Verif.Props.C79_Saving

/-!
# C67: a work graph saved as a table and read again
-/

namespace Sampo.C67

open Table

variable {code : Token → Nat} {readLag : Token → Option Int} {readModel : Token → Bool} {name : Nat → Token} {writeLag : Int → Token}
  {sort : List (Nat × List (Nat × Int × EdgeType)) → List (Nat × List (Nat × Int × EdgeType))} {arrange : List Nat → List Nat}
  {dump : Nat → Option Json.Val} {g : Graph} {start finish start' finish' fuel : Nat} {nodes : List Nat} {o : Options} {past : Nat → List Past}

/-- Not proved because false: no table is made of any work graph with a work; `to_frame` raises an exception, as the dictionary of a work
has no entry `volume_type`. -/
theorem frame_not_made (units : Nat → Json.WorkUnit) (hw : ∃ v ∈ nodes, v ≠ start ∧ v ≠ finish) :
    toFrame (fun v => Json.dumpd Json.classes (units v).val) name writeLag g start finish nodes = none := by
  obtain ⟨v, hv, hvs⟩ := hw
  unfold toFrame
  rw [if_neg]
  intro h
  have h1 := List.all_eq_true.mp h v (List.mem_filter.mpr ⟨hv, by simpa using hvs⟩)
  obtain ⟨d, hd, hk⟩ := C79.work_keys (units v)
  dsimp only at h1
  rw [hd] at h1
  have h2 := List.all_eq_true.mp h1 "volume_type" (by decide)
  rw [List.lookup_eq_none_iff.2] at h2
  · cases h2
  · intro p hp
    have : p.1 ∈ d.map (·.1) := List.mem_map_of_mem hp
    rw [hk] at this
    by_contra hne
    have hne : "volume_type" = p.1 := by simpa using hne
    rw [← hne] at this
    exact absurd this (by decide)

private theorem frame_eq {frame : List Raw} (h : toFrame dump name writeLag g start finish nodes = some frame) :
    frame = frameRows name writeLag g start finish nodes := by
  unfold toFrame at h
  split at h
  · exact (Option.some.inj h).symm
  · cases h

/-- Not proved because false: even if the works are given an attribute `volume_type`, so that a table is made, reading the table raises an
exception for every work graph with a work, as it has no column `model_name`. -/
theorem frame_raises {frame : List Raw} (hfr : toFrame dump name writeLag g start finish nodes = some frame)
    (hw : ∃ v ∈ nodes, v ≠ start ∧ v ≠ finish) (he : readModel [] = false) :
    readTable code readLag readModel o past fuel frame = some none := by
  rw [frame_eq hfr]
  refine C65.documented_columns_raise ?_ ?_ he
  · obtain ⟨v, hv, hvs⟩ := hw
    intro h
    have : v ∈ nodes.filter fun v => v ≠ start ∧ v ≠ finish := List.mem_filter.mpr ⟨hv, by simpa using hvs⟩
    rw [List.map_eq_nil_iff.mp h] at this
    simp at this
  · intro r hr
    obtain ⟨v, _, rfl⟩ := List.mem_map.mp hr
    rfl

/-- What is asked of ids and of the texts of lags: ids are distinct texts without commas that are not numbers with leading zeros or a
fraction and not the text of a missing value; a lag can be read again. -/
structure Texts (code : Token → Nat) (readLag : Token → Option Int) (name : Nat → Token) (writeLag : Int → Token) (g : Graph)
    (nodes : List Nat) : Prop where
  code_inj : Function.Injective code
  code_name : ∀ v ∈ nodes, code (name v) = v
  plain : ∀ v ∈ nodes, Plain (name v) ∧ normalize (name v) = name v ∧ name v ≠ "-1".toList
  lags : ∀ v ∈ nodes, ∀ e ∈ g.edgesTo v, Plain (writeLag e.lag) ∧ readLag (writeLag e.lag) = some e.lag

/-- If the works have an attribute `volume_type`, and with a column `model_name` added to the table that `to_frame` makes of a work graph, reading it gives a work graph of the same works
with a new start and a new finish; the edges between the works are the same, in the same order, with the same types and lags.  Missing for
the full claim: the works need an attribute `volume_type`, the column has to be added, and edges from the old start and to the old finish are not saved. -/
theorem round_trip_partial (hp : g.Project start nodes) (hw : ∃ v ∈ nodes, v ≠ start ∧ v ≠ finish)
    (ht : Texts code readLag name writeLag g nodes) {frame table : List Raw}
    (hfr : toFrame dump name writeLag g start finish nodes = some frame)
    (htab : List.Forall₂ (fun r f => r = { f with model := r.model } ∧ readModel r.model = true) table frame)
    (hm : C65.Unchanged o past) (hs : Sorts sort) (har : ∀ l, (arrange l).Perm l)
    (hst : start' ∉ nodes) (hfi : finish' ∉ nodes) (hsf : start' ≠ finish')
    (hf : 5 * (((nodes.filter fun v => v ≠ start ∧ v ≠ finish).map fun v => (g.edgesTo v).length + 1).sum) + 1 ≤ fuel) :
    ∃ rows g', readTable code readLag readModel o past fuel table = some (some rows) ∧
      workGraph sort arrange start' finish' rows = some g' ∧
      g'.Project start' (start' :: finish' :: nodes.filter fun v => v ≠ start ∧ v ≠ finish) ∧
      ∀ v ∈ nodes, v ≠ start → v ≠ finish →
        EdgesInto g' start' v ((g.edgesTo v).filter fun e => e.start ≠ start ∧ e.start ≠ finish) := by
  rw [frame_eq hfr] at htab
  set inner := nodes.filter fun v => v ≠ start ∧ v ≠ finish with hinner
  have hin : ∀ v, v ∈ inner ↔ v ∈ nodes ∧ v ≠ start ∧ v ≠ finish := by
    intro v
    rw [hinner, List.mem_filter]
    simp
  set es : Nat → List Edge := fun v => (g.edgesTo v).filter fun e => e.start ≠ start ∧ e.start ≠ finish with hes
  set work : Nat → Work := fun v => ⟨name v, (es v).map fun e => ⟨name e.start, e.type, e.lag⟩⟩ with hwork
  have hesin : ∀ v ∈ inner, ∀ e ∈ es v, e.start ∈ inner ∧ e.finish = v := by
    intro v hv e he
    obtain ⟨he, hne⟩ := List.mem_filter.mp he
    have hv' := ((hin v).mp hv).1
    exact ⟨(hin _).mpr ⟨(hp.closed v hv').1 e he, by simpa using hne⟩, hp.linked.finish v e he⟩
  have hnin : ∀ v ∈ inner, v ∈ nodes := fun v hv => ((hin v).mp hv).1
  have hinj : ∀ u ∈ inner, ∀ v ∈ inner, name u = name v → u = v := by
    intro u hu v hv he
    rw [← ht.code_name u (hnin u hu), ← ht.code_name v (hnin v hv), he]
  have hids : (inner.map work).map (·.id) = inner.map name := by rw [List.map_map]; rfl
  have hcode : ((inner.map work).map fun w => code w.id) = inner := by
    rw [List.map_map]
    conv_rhs => rw [← List.map_id inner]
    apply List.map_congr_left
    intro v hv
    exact ht.code_name v (hnin v hv)
  have holds : ∀ ts : List Token, Holds (some ([','].intercalate ts)) ts := by
    intro ts
    cases ts with
    | nil => exact Or.inl ⟨rfl, Or.inr rfl⟩
    | cons t ts => exact Or.inr ⟨by simp, rfl⟩
  have hwritten : List.Forall₂ (Written readLag readModel) table (inner.map work) := by
    have hframe : frameRows name writeLag g start finish nodes = inner.map fun v =>
        (⟨name v, [], some ([','].intercalate ((es v).map fun e => name e.start)), some ([','].intercalate ((es v).map fun e => typeText e.type)),
          some ([','].intercalate ((es v).map fun e => writeLag e.lag))⟩ : Raw) := rfl
    rw [hframe, List.forall₂_map_right_iff] at htab
    rw [List.forall₂_map_right_iff]
    have hall : ∀ v ∈ inner, ∀ e ∈ es v, e.start ∈ nodes ∧ Plain (writeLag e.lag) ∧ readLag (writeLag e.lag) = some e.lag :=
      fun v hv e he => ⟨hnin _ (hesin v hv e he).1, ht.lags v (hnin v hv) e (List.mem_filter.mp he).1⟩
    clear_value inner
    clear hin hesin hnin hinj hids hcode hw hf hframe hinner
    induction htab with
    | nil => exact .nil
    | @cons r v table inner hr _ ih =>
      refine .cons ?_ (ih fun v hv => hall v (List.mem_cons_of_mem _ hv))
      obtain ⟨h1, h2⟩ := hr
      have hv := hall v (by simp)
      refine ⟨by rw [h1], h2, ⟨(es v).map fun e => name e.start, by rw [h1]; exact holds _, ?_⟩, ?_,
        ⟨(es v).map fun e => writeLag e.lag, by rw [h1]; exact holds _, ?_⟩⟩
      · rw [hwork]
        dsimp only
        rw [List.forall₂_map_left_iff, List.forall₂_map_right_iff, List.forall₂_same]
        exact fun e he => ⟨(ht.plain _ (hv e he).1).1, (ht.plain _ (hv e he).1).2.1⟩
      · rw [h1, hwork]
        dsimp only
        rw [List.map_map]
        exact holds _
      · rw [hwork]
        dsimp only
        rw [List.forall₂_map_left_iff, List.forall₂_map_right_iff, List.forall₂_same]
        exact fun e he => (hv e he).2
  have hset : Setting code readLag readModel table (inner.map work) sort arrange start' finish' :=
    { written := hwritten
      code_inj := ht.code_inj
      some_work := by
        obtain ⟨v, hv, hvs⟩ := hw
        intro h
        have := (hin v).mpr ⟨hv, hvs⟩
        rw [List.map_eq_nil_iff.mp h] at this
        simp at this
      distinct := by
        rw [hids]
        exact List.Nodup.map_on (fun u hu v hv he => hinj u hu v hv he) (hp.once.filter _)
      proper := by
        rw [hids]
        intro h
        obtain ⟨v, hv, he⟩ := List.mem_map.mp h
        exact (ht.plain v (hnin v hv)).2.2 he
      sorts := hs
      arranges := har
      start_new := by rw [hcode]; exact fun h => hst (hnin _ h)
      finish_new := by rw [hcode]; exact fun h => hfi (hnin _ h)
      start_finish := hsf }
  have hback : ∀ p t, Relation.TransGen (Precedes (inner.map work)) p t →
      ∃ a ∈ inner, ∃ b ∈ inner, p = name a ∧ t = name b ∧ Relation.TransGen g.Before a b := by
    have hstep : ∀ p t, Precedes (inner.map work) p t → ∃ a ∈ inner, ∃ b ∈ inner, p = name a ∧ t = name b ∧ g.Before a b := by
      rintro p t ⟨w, hw, rfl, l, hl, rfl⟩
      obtain ⟨v, hv, rfl⟩ := List.mem_map.mp hw
      obtain ⟨e, he, rfl⟩ := List.mem_map.mp hl
      exact ⟨e.start, (hesin v hv e he).1, v, hv, rfl, rfl, e, (List.mem_filter.mp he).1, rfl⟩
    intro p t h
    induction h with
    | single h =>
      obtain ⟨a, ha, b, hb, h1, h2, h3⟩ := hstep _ _ h
      exact ⟨a, ha, b, hb, h1, h2, .single h3⟩
    | tail _ h ih =>
      obtain ⟨a, ha, b, hb, h1, h2, h3⟩ := ih
      obtain ⟨c, hc, d, hd, h4, h5, h6⟩ := hstep _ _ h
      obtain rfl := hinj b hb c hc (h2.symm.trans h4)
      exact ⟨a, ha, d, hd, h1, h5, h3.tail h6⟩
  obtain ⟨rows, g', h1, h2, h3, -, h5⟩ := C65.acyclic_table_to_graph (fuel := fuel) hset hm (by
      refine le_trans ?_ hf
      rw [List.map_map]
      refine Nat.add_le_add_right (Nat.mul_le_mul_left 5 (List.sum_le_sum fun v _ => ?_)) 1
      have : (es v).length ≤ (g.edgesTo v).length := List.length_filter_le _ _
      simpa [hwork, Function.comp] using this) (by
      intro t h
      obtain ⟨a, ha, b, hb, h1, h2, h3⟩ := hback t t h
      obtain rfl := hinj a ha b hb (h1.symm.trans h2)
      exact hp.acyclic a (hnin a ha) h3)
  rw [hcode] at h3
  refine ⟨rows, g', h1, h2, h3, fun v hv hvs hvf => ?_⟩
  have hvi : v ∈ inner := (hin v).mpr ⟨hv, hvs, hvf⟩
  have := h5 (work v) (List.mem_map_of_mem hvi)
  have hid : code (work v).id = v := ht.code_name v hv
  rw [hid, hids] at this
  have hedges : ((work v).links.filter fun l => l.pred ∈ inner.map name).map (Link.edge code (work v).id) = es v := by
    have : ((work v).links.filter fun l => l.pred ∈ inner.map name) = (work v).links := by
      rw [List.filter_eq_self]
      intro l hl
      obtain ⟨e, he, rfl⟩ := List.mem_map.mp hl
      exact decide_eq_true (List.mem_map_of_mem (hesin v hvi e he).1)
    rw [this]
    rw [hwork]
    dsimp only
    rw [List.map_map]
    conv_rhs => rw [← List.map_id (es v)]
    apply List.map_congr_left
    intro e he
    obtain ⟨he1, he2⟩ := hesin v hvi e he
    unfold Link.edge
    dsimp only [Function.comp, id]
    rw [ht.code_name v hv, ht.code_name _ (hnin _ he1), ← he2]
  rw [hedges] at this
  exact this

/-- If moreover the graph was built by the program itself, so that the start has an edge with lag 0 to exactly the works without a
dependency, then the edges into every work are the same but for the id of the start. -/
theorem built_graph_round_trip_partial (hp : g.Project start nodes) (hw : ∃ v ∈ nodes, v ≠ start ∧ v ≠ finish)
    (ht : Texts code readLag name writeLag g nodes) {frame table : List Raw}
    (hfr : toFrame dump name writeLag g start finish nodes = some frame)
    (htab : List.Forall₂ (fun r f => r = { f with model := r.model } ∧ readModel r.model = true) table frame)
    (hb : ∀ v ∈ nodes, v ≠ start → v ≠ finish → ∃ es, EdgesInto g start v es ∧ ∀ e ∈ es, e.start ≠ start ∧ e.start ≠ finish)
    (hm : C65.Unchanged o past) (hs : Sorts sort) (har : ∀ l, (arrange l).Perm l)
    (hst : start' ∉ nodes) (hfi : finish' ∉ nodes) (hsf : start' ≠ finish')
    (hf : 5 * (((nodes.filter fun v => v ≠ start ∧ v ≠ finish).map fun v => (g.edgesTo v).length + 1).sum) + 1 ≤ fuel) :
    ∃ rows g', readTable code readLag readModel o past fuel table = some (some rows) ∧
      workGraph sort arrange start' finish' rows = some g' ∧
      g'.Project start' (start' :: finish' :: nodes.filter fun v => v ≠ start ∧ v ≠ finish) ∧
      ∀ v ∈ nodes, v ≠ start → v ≠ finish →
        g'.edgesTo v = (g.edgesTo v).map fun e => if e.start = start then { e with start := start' } else e := by
  obtain ⟨rows, g', h1, h2, h3, h4⟩ := round_trip_partial (fuel := fuel) (start' := start') (finish' := finish') hp hw ht hfr htab hm hs har hst hfi hsf hf
  refine ⟨rows, g', h1, h2, h3, fun v hv hvs hvf => ?_⟩
  obtain ⟨es, he, hes⟩ := hb v hv hvs hvf
  have h5 := h4 v hv hvs hvf
  unfold EdgesInto at he h5
  have hsame : (es.map fun e => if e.start = start then { e with start := start' } else e) = es := by
    conv_rhs => rw [← List.map_id es]
    exact List.map_congr_left fun e h => if_neg (hes e h).1
  have hkeep : (es.filter fun e => e.start ≠ start ∧ e.start ≠ finish) = es := by
    rw [List.filter_eq_self]
    exact fun e h => by simpa using hes e h
  have hinner : ((g.edgesTo v).filter fun e => e.start ≠ start ∧ e.start ≠ finish) = es := by
    rw [he, List.filter_append, hkeep]
    by_cases h : (es.any fun e => e.type.Dependency) = true
    · rw [if_pos h]; simp
    · rw [if_neg h]; simp
  rw [hinner] at h5
  rw [h5, he, List.map_append, hsame]
  by_cases h : (es.any fun e => e.type.Dependency) = true
  · rw [if_pos h, if_pos h]; rfl
  · rw [if_neg h, if_neg h]; simp

/-! ### A lost edge, and the hypotheses can be met -/

/-- Ids with one letter. -/
private def letter (v : Nat) : Token := [Char.ofNat (v - 1)]

private def digit (l : Int) : Token := Nat.toDigits 10 l.toNat

private def a : Nat := number "a".toList
private def b : Nat := number "b".toList
private def c : Nat := number "c".toList
private def f : Nat := number "f".toList
private def s : Nat := number "s".toList

private def frame (g : Graph) (nodes : List Nat) : List Raw :=
  (frameRows letter digit g s f nodes).map fun r => { r with model := "m".toList }

/-- Not proved because false: a work that may start only 5 hours after the start of the project can start at once after the round trip. -/
theorem start_lag_lost :
    ((readTable number readDigit (fun m => !m.isEmpty) ⟨true, false, false⟩ (fun _ => []) 100
      (frame (.ofEdges [⟨s, a, 5, .lagFinishStart⟩, ⟨a, f, 0, .finishStart⟩]) [s, a, f])).map fun r => r.map fun rows =>
        (workGraph id id 1 2 rows).map fun g => g.edgesTo a) = some (some (some [⟨1, a, 0, .finishStart⟩])) := by
  decide +kernel

/-- The works a, b after a with a lag, c not before a. -/
private def demo : Graph := .ofEdges [⟨s, a, 0, .finishStart⟩, ⟨a, b, 3, .lagFinishStart⟩, ⟨a, c, 2, .startStart⟩, ⟨s, c, 0, .finishStart⟩,
  ⟨b, f, 0, .finishStart⟩, ⟨c, f, 0, .finishStart⟩]

example : demo.Project s [s, a, b, c, f] where
  once := by decide
  linked := Graph.linked_ofEdges _
  start_mem := by decide
  closed := Graph.closed_ofEdges (by decide)
  reach := by
    have e : ∀ p v, (p, v) ∈ [(s, a), (a, b), (s, c), (b, f)] → demo.Before p v := by
      intro p v h
      simp only [List.mem_cons, Prod.mk.injEq, List.not_mem_nil, or_false] at h
      rcases h with ⟨rfl, rfl⟩ | ⟨rfl, rfl⟩ | ⟨rfl, rfl⟩ | ⟨rfl, rfl⟩ <;> unfold Graph.Before <;> decide
    have h1 : demo.Reaches s a := Relation.ReflTransGen.single (e s a (by decide))
    have h2 : demo.Reaches s b := h1.tail (e a b (by decide))
    intro v hv
    simp only [List.mem_cons, List.not_mem_nil, or_false] at hv
    rcases hv with rfl | rfl | rfl | rfl | rfl
    · exact Relation.ReflTransGen.refl
    · exact h1
    · exact h2
    · exact Relation.ReflTransGen.single (e s c (by decide))
    · exact h2.tail (e b f (by decide))
  acyclic := Graph.acyclic_before_ofEdges (fun v => if v = s then 0 else v) (by decide)

example : Texts number readDigit letter digit demo [s, a, b, c, f] where
  code_inj := number_injective
  code_name := by decide
  plain := by
    have : ∀ v ∈ [s, a, b, c, f], (letter v ≠ [] ∧ ',' ∉ letter v ∧ letter v ≠ "nan".toList) ∧ normalize (letter v) = letter v ∧
        letter v ≠ "-1".toList := by decide +kernel
    exact fun v hv => ⟨⟨(this v hv).1.1, (this v hv).1.2.1, (this v hv).1.2.2⟩, (this v hv).2⟩
  lags := by
    have : ∀ v ∈ [s, a, b, c, f], ∀ e ∈ demo.edgesTo v, (digit e.lag ≠ [] ∧ ',' ∉ digit e.lag ∧ digit e.lag ≠ "nan".toList) ∧
        readDigit (digit e.lag) = some e.lag := by decide +kernel
    exact fun v hv e he => ⟨⟨(this v hv e he).1.1, (this v hv e he).1.2.1, (this v hv e he).1.2.2⟩, (this v hv e he).2⟩

/-- Works with an attribute `volume_type`. -/
example : toFrame (fun _ => some (.dict (frameKeys.map fun k => (k, .null)))) letter digit demo s f [s, a, b, c, f] =
    some (frameRows letter digit demo s f [s, a, b, c, f]) := by
  unfold toFrame hasFrameKeys
  rw [if_pos]
  decide

example : List.Forall₂ (fun r f => r = { f with model := r.model } ∧ (fun m : Token => !m.isEmpty) r.model = true)
    (frame demo [s, a, b, c, f]) (frameRows letter digit demo s f [s, a, b, c, f]) := by
  unfold frame
  rw [List.forall₂_map_left_iff, List.forall₂_same]
  exact fun r _ => ⟨rfl, rfl⟩

example : ∀ v ∈ [s, a, b, c, f], v ≠ s → v ≠ f →
    EdgesInto demo s v ((demo.edgesTo v).filter fun e => e.start ≠ s) := by
  unfold EdgesInto
  decide +kernel

example : ((readTable number readDigit (fun m => !m.isEmpty) ⟨true, false, false⟩ (fun _ => []) 100
      (frame demo [s, a, b, c, f])).map fun r => r.map fun rows =>
        (workGraph id id 1 2 rows).map fun g => g.edgesTo c) = some (some (some [⟨a, c, 2, .startStart⟩, ⟨1, c, 0, .finishStart⟩])) := by
  decide +kernel

end Sampo.C67
