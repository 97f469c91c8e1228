import Verif.Circuit.Json
import Verif.Circuit.CopyLemmas
import Verif.Circuit.CondTree
import Verif.Graph.Iso

/-! Helper lemmas: reading back what was written. -/

namespace PM

open Spec

theorem Bound.fromJson_toJson (b : Bound) : Bound.fromJson b.toJson = .ok b := by cases b <;> rfl

theorem SimpleInterval.fromJson_toJson (I : SimpleInterval) : SimpleInterval.fromJson I.toJson = .ok I := by
  obtain ⟨lo, hi, l, r⟩ := I
  cases l <;> cases r <;> rfl

namespace Leaf

theorem setFromJson_ok (d : List (ℤ × ℝ)) (k : ℤ) (p : ℝ) :
    setFromJson d (.arr [.int k, .num (p : ℝ)]) = .ok (Dict.set d k p) := rfl

theorem load_probs (rest : List (ℤ × ℝ)) : ∀ pre : List (ℤ × ℝ), ((pre ++ rest).map Prod.fst).Nodup →
    (rest.map fun kp => Json.arr [.int kp.1, .num ((kp.2 : ℝ) : EReal)]).foldlM setFromJson pre = .ok (pre ++ rest) := by
  induction rest with
  | nil => intro pre _; rw [List.append_nil]; rfl
  | cons a rest ih =>
    intro pre h
    have hset : Dict.set pre a.1 a.2 = pre ++ [a] := by
      unfold Dict.set
      rw [if_neg]
      intro hm
      rw [List.map_append, List.nodup_append] at h
      exact h.2.2 a.1 hm a.1 (by simp) rfl
    rw [List.map_cons, List.foldlM_cons, setFromJson_ok, hset]
    have := ih (pre ++ [a]) (by simpa using h)
    rw [List.append_assoc] at this
    exact this

/-- The keys of the probabilities are distinct, as in every dictionary. -/
def KeysNodup : Leaf → Prop
  | symbolic _ probs | integer _ probs => (probs.map Prod.fst).Nodup
  | _ => True

theorem fromJson_toJson (d : Leaf) (h : d.KeysNodup) : Leaf.fromJson d.toJson = .ok d := by
  cases d with
  | uniform v lo hi l r => cases l <;> cases r <;> rfl
  | dirac v loc cap => rfl
  | symbolic v probs =>
    have := load_probs probs [] h
    show (do let probs ← (probs.map fun kp : ℤ × ℝ => Json.arr [.int kp.1, .num ((kp.2 : ℝ) : EReal)]).foldlM setFromJson []; Except.ok (symbolic v probs)) = _
    rw [this]; rfl
  | integer v probs =>
    have := load_probs probs [] h
    show (do let probs ← (probs.map fun kp : ℤ × ℝ => Json.arr [.int kp.1, .num ((kp.2 : ℝ) : EReal)]).foldlM setFromJson []; Except.ok (integer v probs)) = _
    rw [this]; rfl
  | gaussian v μ σ => rfl
  | truncGaussian v I μ σ =>
    obtain ⟨lo, hi, l, r⟩ := I
    cases l <;> cases r <;> rfl

end Leaf

theorem Kind.fromJson_toJson (k : Kind Leaf) (h : ∀ d, k = .leaf d → d.KeysNodup) : Kind.fromJson k.toJson = .ok k := by
  cases k with
  | leaf d =>
    show (do let d ← Leaf.fromJson d.toJson; Except.ok (Kind.leaf d)) = _
    rw [Leaf.fromJson_toJson d (h d rfl)]; rfl
  | sum => rfl
  | prod => rfl

theorem LogP.fromJson_toJson (w : LogP) : LogP.fromJson w.toJson = .ok w := by
  cases w with
  | negInf => simp [LogP.fromJson, LogP.toJson, Json.asNum, bind, Except.bind]
  | fin x => simp [LogP.fromJson, LogP.toJson, Json.asNum, bind, Except.bind]

namespace Graph

/-- The identity a unit gets when the circuit is read. -/
def loadId (g : Circuit) (base : Nat) (n : Node) : Node := base + g.ids.idxOf n

theorem loadId_inj (g : Circuit) (base : Nat) {a b : Node} (ha : a ∈ g.ids) (h : g.loadId base a = g.loadId base b) : a = b := by
  have : g.ids.idxOf a = g.ids.idxOf b := Nat.add_left_cancel h
  exact (List.idxOf_inj ha).1 this

/-- The dictionary from old to new identities. -/
def remapOf (g : Circuit) (base : Nat) (l : List (Node × Kind Leaf)) : Dict ℤ Node := l.map fun p => ((p.1 : ℤ), g.loadId base p.1)

theorem remapGet_ok (g : Circuit) (base : Nat) {n : Node} (hn : n ∈ g.ids) : remapGet (g.remapOf base g.nodes) n = .ok (g.loadId base n) := by
  unfold ids at hn
  obtain ⟨p, hp, rfl⟩ := List.mem_map.1 hn
  unfold remapGet remapOf
  have key : ∀ l : List (Node × Kind Leaf), p ∈ l → ∃ q, q ∈ l ∧ q.1 = p.1 ∧
      (l.map fun p => ((p.1 : ℤ), g.loadId base p.1)).find? (fun q => decide (q.1 = (p.1 : ℤ))) = some ((q.1 : ℤ), g.loadId base q.1) := by
    intro l
    induction l with
    | nil => intro h; cases h
    | cons a l ih =>
      intro h
      by_cases ha : a.1 = p.1
      · exact ⟨a, by simp, ha, by simp [ha]⟩
      · rcases List.mem_cons.1 h with h | h
        · exact absurd (by rw [h]) ha
        · obtain ⟨q, h1, h2, h3⟩ := ih h
          refine ⟨q, List.mem_cons_of_mem _ h1, h2, ?_⟩
          rw [List.map_cons, List.find?_cons]
          have : decide ((a.1 : ℤ) = (p.1 : ℤ)) = false := by
            rw [decide_eq_false_iff_not]; intro h; exact ha (by exact_mod_cast h)
          simp only [this]
          exact h3
  obtain ⟨q, _, h2, h3⟩ := key g.nodes hp
  rw [h3, h2]

theorem load_nodes (g : Circuit) (hw : g.WF) (hk : ∀ n d, g.kind? n = some (.leaf d) → d.KeysNodup) (base : Nat) :
    (g.nodes.map fun p => (JKey.hash p.1, p.2.toJson)).foldlM (loadNode base) (⟨[], []⟩, []) =
      .ok (⟨g.nodes.map fun p => (g.loadId base p.1, p.2), []⟩, g.remapOf base g.nodes) := by
  have key : ∀ rest pre : List (Node × Kind Leaf), g.nodes = pre ++ rest →
      (rest.map fun p => (JKey.hash p.1, p.2.toJson)).foldlM (loadNode base)
        (⟨pre.map fun p => (g.loadId base p.1, p.2), []⟩, g.remapOf base pre) =
      .ok (⟨(pre ++ rest).map fun p => (g.loadId base p.1, p.2), []⟩, g.remapOf base (pre ++ rest)) := by
    intro rest
    induction rest with
    | nil => intro pre _; rw [List.append_nil]; rfl
    | cons a rest ih =>
      intro pre h
      have hids : g.ids = pre.map Prod.fst ++ a.1 :: rest.map Prod.fst := by unfold ids; rw [h]; simp
      have hnd := hw.nodup
      rw [hids, List.nodup_append] at hnd
      have hna : a.1 ∉ pre.map Prod.fst := fun hm => hnd.2.2 a.1 hm a.1 (by simp) rfl
      have hidx : g.loadId base a.1 = base + pre.length := by
        unfold loadId
        rw [hids, List.idxOf_append_of_notMem hna]
        simp
      have hkind : Kind.fromJson a.2.toJson = .ok a.2 := by
        refine Kind.fromJson_toJson _ fun d hd => hk a.1 d ?_
        rw [← hd]
        exact kind?_of_mem_nodes hw (by rw [h]; simp)
      have hnew : base + pre.length ∉ ids (⟨pre.map fun p => (g.loadId base p.1, p.2), []⟩ : Circuit) := by
        unfold ids
        rw [List.map_map, List.mem_map]
        rintro ⟨p, hp, he⟩
        have he : g.loadId base p.1 = g.loadId base a.1 := he.trans hidx.symm
        have := loadId_inj g base (by rw [hids]; exact List.mem_append_left _ (List.mem_map.2 ⟨p, hp, rfl⟩)) he
        exact hna (List.mem_map.2 ⟨p, hp, this⟩)
      have hset : Dict.set (g.remapOf base pre) (a.1 : ℤ) (base + pre.length) = g.remapOf base (pre ++ [a]) := by
        unfold Dict.set
        rw [if_neg]
        · unfold remapOf; rw [List.map_append, ← hidx]; rfl
        · unfold remapOf
          rw [List.map_map, List.mem_map]
          rintro ⟨p, hp, he⟩
          exact hna (List.mem_map.2 ⟨p, hp, Int.ofNat.inj he⟩)
      have hstep : loadNode base (⟨pre.map fun p => (g.loadId base p.1, p.2), []⟩, g.remapOf base pre) (.hash a.1, a.2.toJson) =
          .ok (⟨(pre ++ [a]).map fun p => (g.loadId base p.1, p.2), []⟩, g.remapOf base (pre ++ [a])) := by
        unfold loadNode
        simp only [hkind, bind, Except.bind, List.length_map]
        unfold addNode
        rw [if_neg hnew, hset, List.map_append, ← hidx]
        rfl
      rw [List.map_cons, List.foldlM_cons, hstep]
      have := ih (pre ++ [a]) (by rw [h]; simp)
      rw [List.append_assoc] at this
      exact this
  exact key g.nodes [] rfl

/-- An edge between the new identities. -/
def loadedEdge (g : Circuit) (base : Nat) (e : Edge) : Edge := ⟨g.loadId base e.src, g.loadId base e.dst, e.weight⟩

/-- An edge between the new identities, its weight still missing. -/
def bareEdge (g : Circuit) (base : Nat) (e : Edge) : Edge := ⟨g.loadId base e.src, g.loadId base e.dst, none⟩

theorem addEdge_append {D : Type} {ns : List (Node × Kind D)} {es : List Edge} {u v : Node} {w : Option LogP}
    (h : ∀ e ∈ es, ¬(e.src = u ∧ e.dst = v)) : addEdge ⟨ns, es⟩ u v w = ⟨ns, es ++ [⟨u, v, w⟩]⟩ := by
  unfold addEdge
  rw [if_neg]
  intro hc
  rw [List.any_eq_true] at hc
  obtain ⟨e, he, h1⟩ := hc
  exact h e he (by simpa using h1)

theorem addEdge_update {D : Type} {ns : List (Node × Kind D)} {A B : List Edge} {u v : Node} {w : LogP}
    (hA : ∀ e ∈ A, ¬(e.src = u ∧ e.dst = v)) (hB : ∀ e ∈ B, ¬(e.src = u ∧ e.dst = v)) :
    addEdge ⟨ns, A ++ ⟨u, v, none⟩ :: B⟩ u v (some w) = ⟨ns, A ++ ⟨u, v, some w⟩ :: B⟩ := by
  have hid : ∀ l : List Edge, (∀ e ∈ l, ¬(e.src = u ∧ e.dst = v)) →
      l.map (fun e => if (e.src == u && e.dst == v) = true then { e with weight := (some w).or e.weight } else e) = l := by
    intro l hl
    conv_rhs => rw [← List.map_id l]
    exact List.map_congr_left fun e he => if_neg (by simpa using hl e he)
  unfold addEdge
  rw [if_pos (by simp)]
  simp only [List.map_append, List.map_cons, hid A hA, hid B hB]
  simp

theorem edgeView_pairs {g : Circuit} (hw : g.WF) : (g.edgeView.map fun e => (e.src, e.dst)).Nodup :=
  ((edgeView_perm hw).map _).nodup_iff.2 hw.edgeNodup

theorem edge_ne {g : Circuit} (hw : g.WF) (base : Nat) {a b : Edge} (ha : a ∈ g.edgeView)
    (hne : (a.src, a.dst) ≠ (b.src, b.dst)) : ¬(g.loadId base a.src = g.loadId base b.src ∧ g.loadId base a.dst = g.loadId base b.dst) := by
  rintro ⟨h1, h2⟩
  have he := (mem_edgeView hw).1 ha
  exact hne (Prod.ext (loadId_inj g base (hw.srcMem a he) h1) (loadId_inj g base (hw.dstMem a he) h2))

theorem loadEdge_ok {g : Circuit} (hw : g.WF) (base : Nat) (c : Circuit) {e : Edge} (he : e ∈ g.edgeView) :
    loadEdge (g.remapOf base g.nodes) c (.arr [.int e.src, .int e.dst]) =
      .ok (c.addEdge (g.loadId base e.src) (g.loadId base e.dst) none) := by
  have he := (mem_edgeView hw).1 he
  unfold loadEdge
  simp only [Json.asArr, Json.asInt, bind, Except.bind, remapGet_ok g base (hw.srcMem e he), remapGet_ok g base (hw.dstMem e he)]

theorem loadWeightedEdge_ok {g : Circuit} (hw : g.WF) (base : Nat) (c : Circuit) {e : Edge} (he : e ∈ g.edgeView) (w : LogP) :
    loadWeightedEdge (g.remapOf base g.nodes) c (.arr [.int e.src, .int e.dst, w.toJson]) =
      .ok (c.addEdge (g.loadId base e.src) (g.loadId base e.dst) (some w)) := by
  have he := (mem_edgeView hw).1 he
  unfold loadWeightedEdge
  simp only [Json.asArr, Json.asInt, bind, Except.bind, remapGet_ok g base (hw.srcMem e he), remapGet_ok g base (hw.dstMem e he),
    LogP.fromJson_toJson]

theorem load_edges {g : Circuit} (hw : g.WF) (base : Nat) (ns : List (Node × Kind Leaf)) :
    (g.edgeView.map fun e => Json.arr [.int e.src, .int e.dst]).foldlM (loadEdge (g.remapOf base g.nodes)) ⟨ns, []⟩ =
      .ok ⟨ns, g.edgeView.map (g.bareEdge base)⟩ := by
  have key : ∀ rest pre : List Edge, g.edgeView = pre ++ rest →
      (rest.map fun e => Json.arr [.int e.src, .int e.dst]).foldlM (loadEdge (g.remapOf base g.nodes))
        ⟨ns, pre.map (g.bareEdge base)⟩ = .ok ⟨ns, (pre ++ rest).map (g.bareEdge base)⟩ := by
    intro rest
    induction rest with
    | nil => intro pre _; rw [List.append_nil]; rfl
    | cons a rest ih =>
      intro pre h
      have ha : a ∈ g.edgeView := by rw [h]; simp
      have hnd := edgeView_pairs hw
      rw [h, List.map_append, List.nodup_append] at hnd
      rw [List.map_cons, List.foldlM_cons, loadEdge_ok hw base _ ha, addEdge_append]
      · have := ih (pre ++ [a]) (by rw [h]; simp)
        rw [List.append_assoc, List.map_append] at this
        exact this
      · intro e he
        obtain ⟨b, hb, rfl⟩ := List.mem_map.1 he
        refine edge_ne hw base (by rw [h]; exact List.mem_append_left _ hb) ?_
        exact fun hc => hnd.2.2 _ (List.mem_map.2 ⟨b, hb, rfl⟩) (a.src, a.dst) (by simp) hc
  exact key g.edgeView [] rfl

theorem load_weights {g : Circuit} (hw : g.WF) (base : Nat) (ns : List (Node × Kind Leaf)) :
    (g.logWeightedEdges.map fun e => Json.arr [.int e.1, .int e.2.1, e.2.2.toJson]).foldlM
      (loadWeightedEdge (g.remapOf base g.nodes)) ⟨ns, g.edgeView.map (g.bareEdge base)⟩ =
      .ok ⟨ns, g.edgeView.map (g.loadedEdge base)⟩ := by
  have key : ∀ rest pre : List Edge, g.edgeView = pre ++ rest →
      ((rest.filterMap fun e => e.weight.map fun w => (e.src, e.dst, w)).map
        fun e => Json.arr [.int e.1, .int e.2.1, e.2.2.toJson]).foldlM (loadWeightedEdge (g.remapOf base g.nodes))
        ⟨ns, pre.map (g.loadedEdge base) ++ rest.map (g.bareEdge base)⟩ = .ok ⟨ns, (pre ++ rest).map (g.loadedEdge base)⟩ := by
    intro rest
    induction rest with
    | nil => intro pre _; simp only [List.append_nil, List.map_nil]; rfl
    | cons a rest ih =>
      intro pre h
      have ha : a ∈ g.edgeView := by rw [h]; simp
      have hnd := edgeView_pairs hw
      rw [h, List.map_append, List.nodup_append, List.map_cons, List.nodup_cons] at hnd
      have hnext := ih (pre ++ [a]) (by rw [h]; simp)
      rw [List.append_assoc, List.map_append, List.append_assoc] at hnext
      cases hwt : a.weight with
      | none =>
        rw [List.filterMap_cons_none (by rw [hwt]; rfl), List.map_cons]
        have : g.bareEdge base a = g.loadedEdge base a := by unfold bareEdge loadedEdge; rw [hwt]
        rw [this]
        exact hnext
      | some w =>
        rw [List.filterMap_cons_some (b := (a.src, a.dst, w)) (by rw [hwt]; rfl), List.map_cons, List.map_cons, List.foldlM_cons,
          loadWeightedEdge_ok hw base _ ha]
        have e1 : g.bareEdge base a = ⟨g.loadId base a.src, g.loadId base a.dst, none⟩ := rfl
        have e2 : g.loadedEdge base a = ⟨g.loadId base a.src, g.loadId base a.dst, some w⟩ := by unfold loadedEdge; rw [hwt]
        rw [e1, addEdge_update, ← e2]
        · exact hnext
        · intro e he
          obtain ⟨b, hb, rfl⟩ := List.mem_map.1 he
          refine edge_ne hw base (by rw [h]; exact List.mem_append_left _ hb) ?_
          exact fun hc => hnd.2.2 _ (List.mem_map.2 ⟨b, hb, rfl⟩) (a.src, a.dst) (by simp) hc
        · intro e he
          obtain ⟨b, hb, rfl⟩ := List.mem_map.1 he
          refine edge_ne hw base (by rw [h]; exact List.mem_append_right _ (List.mem_cons_of_mem _ hb)) ?_
          exact fun hc => hnd.2.1.1 (List.mem_map.2 ⟨b, hb, hc⟩)
  exact key g.edgeView [] rfl

/-- What reading gives. -/
def loaded (g : Circuit) (base : Nat) : Circuit :=
  ⟨g.nodes.map fun p => (g.loadId base p.1, p.2), g.edgeView.map (g.loadedEdge base)⟩

theorem fromJson_toJson {g : Circuit} (hw : g.WF) (hk : ∀ n d, g.kind? n = some (.leaf d) → d.KeysNodup) (base : Nat) :
    fromJson base g.toJson = .ok (g.loaded base) := by
  have h1 := load_nodes g hw hk base
  have h2 := load_edges hw base (g.nodes.map fun p => (g.loadId base p.1, p.2))
  have h3 := load_weights hw base (g.nodes.map fun p => (g.loadId base p.1, p.2))
  show (do
    let (c, remap) ← (g.nodes.map fun p : Node × Kind Leaf => (JKey.hash p.1, p.2.toJson)).foldlM (loadNode base) (⟨[], []⟩, [])
    let c ← (g.edgeView.map fun e : Edge => Json.arr [.int e.src, .int e.dst]).foldlM (loadEdge remap) c
    (g.logWeightedEdges.map fun e : Node × Node × LogP => Json.arr [.int e.1, .int e.2.1, e.2.2.toJson]).foldlM (loadWeightedEdge remap) c) = _
  rw [h1]
  show (do
    let c ← (g.edgeView.map fun e : Edge => Json.arr [.int e.src, .int e.dst]).foldlM (loadEdge (g.remapOf base g.nodes)) _
    (g.logWeightedEdges.map fun e : Node × Node × LogP => Json.arr [.int e.1, .int e.2.1, e.2.2.toJson]).foldlM
      (loadWeightedEdge (g.remapOf base g.nodes)) c) = _
  rw [h2]
  exact h3

theorem loaded_renamed {g : Circuit} (hw : g.WF) (base : Nat) : Renamed g (g.loaded base) (g.loadId base) := by
  refine ⟨fun a ha b _ h => loadId_inj g base ha h, rfl, ?_, ?_⟩
  · intro n hn
    show (g.edgeView.map (g.loadedEdge base)).filter _ = _
    rw [List.filter_map, ← filter_edgeView hw n]
    show _ = List.map (g.loadedEdge base) _
    congr 1
    apply List.filter_congr
    intro e he
    show (g.loadId base e.src == g.loadId base n) = (e.src == n)
    rw [Bool.eq_iff_iff, beq_iff_eq, beq_iff_eq]
    exact ⟨fun h => loadId_inj g base (hw.srcMem e ((mem_edgeView hw).1 he)) h, fun h => by rw [h]⟩
  · intro e he
    obtain ⟨a, ha, rfl⟩ := List.mem_map.1 he
    have := hw.srcMem a ((mem_edgeView hw).1 ha)
    obtain ⟨p, hp, h⟩ := List.mem_map.1 this
    unfold ids loaded
    rw [List.map_map, List.mem_map]
    exact ⟨p, hp, by show g.loadId base p.1 = _; rw [h]; rfl⟩

theorem copyAt_renamed {D : Type} {g : Graph D} (hw : g.WF) (off : Nat) : Renamed g (g.copyAt off) (off + ·) := by
  refine ⟨fun a _ b _ h => Nat.add_left_cancel h, rfl, fun n _ => outEdges_copyAt hw off n, ?_⟩
  intro e he
  obtain ⟨a, ha, rfl⟩ := (mem_copyAt_edges hw).1 he
  exact mem_ids_copyAt.2 (hw.srcMem a ha)

end Graph
end PM
