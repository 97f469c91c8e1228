import Verif.Heap.Basic

/-! Helper lemmas: the graph operations do not look at the distributions. -/

namespace PM.Graph

variable {D D' : Type} (f : D → D') (g : Graph D)

@[simp] theorem mapLeaf_edges : (g.mapLeaf f).edges = g.edges := rfl

@[simp] theorem mapLeaf_ids : (g.mapLeaf f).ids = g.ids := by
  unfold ids mapLeaf; rw [List.map_map]; rfl

@[simp] theorem mapLeaf_outEdges (n : Node) : (g.mapLeaf f).outEdges n = g.outEdges n := rfl

@[simp] theorem mapLeaf_inEdges (n : Node) : (g.mapLeaf f).inEdges n = g.inEdges n := rfl

@[simp] theorem mapLeaf_succ (n : Node) : (g.mapLeaf f).succ n = g.succ n := rfl

@[simp] theorem mapLeaf_logWeights (n : Node) : (g.mapLeaf f).logWeights n = g.logWeights n := rfl

@[simp] theorem mapLeaf_kind? (n : Node) : (g.mapLeaf f).kind? n = (g.kind? n).map (Kind.map f) := by
  unfold kind? mapLeaf
  rw [List.find?_map, Option.map_map, Option.map_map]
  rfl

@[simp] theorem mapLeaf_root : (g.mapLeaf f).root = g.root := by
  unfold root; rw [mapLeaf_ids]; rfl

theorem mapLeaf_bfsLoop : ∀ (k : ℕ) (v l : List Node), (g.mapLeaf f).bfsLoop k v l = g.bfsLoop k v l
  | 0, _, _ => rfl
  | _ + 1, _, [] => rfl
  | k + 1, v, a :: l => by
    show (a :: l) :: (g.mapLeaf f).bfsLoop k _ _ = (a :: l) :: g.bfsLoop k _ _
    rw [mapLeaf_bfsLoop k]; rfl

@[simp] theorem mapLeaf_layersFrom (r : Node) : (g.mapLeaf f).layersFrom r = g.layersFrom r := by
  unfold layersFrom
  rw [mapLeaf_bfsLoop]
  simp [mapLeaf]

@[simp] theorem mapLeaf_bottomUp (r : Node) : (g.mapLeaf f).bottomUp r = g.bottomUp r := by
  unfold bottomUp; rw [mapLeaf_layersFrom]

@[simp] theorem mapLeaf_fresh : (g.mapLeaf f).fresh = g.fresh := by unfold fresh; rw [mapLeaf_ids]

@[simp] theorem mapLeaf_removeNode (n : Node) : (g.mapLeaf f).removeNode n = (g.removeNode n).mapLeaf f := by
  unfold removeNode mapLeaf
  simp only [List.filter_map]
  rfl

@[simp] theorem mapLeaf_removeEdge (u v : Node) : (g.mapLeaf f).removeEdge u v = (g.removeEdge u v).mapLeaf f := rfl

@[simp] theorem mapLeaf_addEdge (u v : Node) (w : Option LogP) : (g.mapLeaf f).addEdge u v w = (g.addEdge u v w).mapLeaf f := by
  unfold addEdge
  show (if g.edges.any _ then _ else _) = _
  split <;> rfl

theorem mapLeaf_foldl {α : Type} (s : Graph D → α → Graph D) (s' : Graph D' → α → Graph D')
    (hs : ∀ g a, s' (g.mapLeaf f) a = (s g a).mapLeaf f) : ∀ (l : List α) (g : Graph D),
    l.foldl s' (g.mapLeaf f) = (l.foldl s g).mapLeaf f
  | [], _ => rfl
  | a :: l, g => by rw [List.foldl_cons, List.foldl_cons, hs, mapLeaf_foldl s s' hs l]

@[simp] theorem mapLeaf_connectIncoming (n m : Node) : (g.mapLeaf f).connectIncoming n m = (g.connectIncoming n m).mapLeaf f := by
  unfold connectIncoming
  rw [mapLeaf_inEdges]
  exact mapLeaf_foldl f _ _ (fun g e => mapLeaf_addEdge f g _ _ _) _ _

theorem mapLeaf_foldlM {α : Type} (s : Graph D → α → Except PyErr (Graph D)) (s' : Graph D' → α → Except PyErr (Graph D'))
    (hs : ∀ g a, s' (g.mapLeaf f) a = (s g a).map (mapLeaf f)) : ∀ (l : List α) (g : Graph D),
    l.foldlM s' (g.mapLeaf f) = (l.foldlM s g).map (mapLeaf f)
  | [], _ => rfl
  | a :: l, g => by
    rw [List.foldlM_cons, List.foldlM_cons, hs]
    cases s g a with
    | error e => rfl
    | ok g' => exact mapLeaf_foldlM s s' hs l g'

theorem mapLeaf_adopt (n s : Node) (w : LogP) : (g.mapLeaf f).adopt n s w = (g.adopt n s w).map (mapLeaf f) := by
  unfold adopt
  rw [mapLeaf_logWeights]
  cases g.logWeights s with
  | error e => rfl
  | ok ws =>
    show Except.ok _ = Except.ok _
    rw [mapLeaf_succ]
    congr 1
    exact mapLeaf_foldl f _ _ (fun g e => mapLeaf_addEdge f g _ _ _) _ _

theorem mapLeaf_simplifySumChild (n : Node) (p : LogP × Node) :
    simplifySumChild n (g.mapLeaf f) p = (simplifySumChild n g p).map (mapLeaf f) := by
  unfold simplifySumChild
  have key : ∀ g : Graph D, (match (g.mapLeaf f).kind? p.2 with
      | some .sum => do
        let g ← (g.mapLeaf f).adopt n p.2 p.1
        .ok (g.removeNode p.2)
      | _ => .ok (g.mapLeaf f) : Except PyErr (Graph D')) = ((match g.kind? p.2 with
      | some .sum => do
        let g ← g.adopt n p.2 p.1
        .ok (g.removeNode p.2)
      | _ => .ok g : Except PyErr (Graph D))).map (mapLeaf f) := by
    intro g
    rw [mapLeaf_kind?, mapLeaf_adopt]
    cases g.kind? p.2 with
    | none => rfl
    | some k =>
      cases k with
      | leaf d => rfl
      | prod => rfl
      | sum =>
        show ((g.adopt n p.2 p.1).map (mapLeaf f) >>= _) = (g.adopt n p.2 p.1 >>= _).map _
        cases g.adopt n p.2 p.1 with
        | error e => rfl
        | ok g' =>
          show Except.ok _ = Except.ok _
          rw [mapLeaf_removeNode]
  by_cases hp : p.1.isNegInf
  · simp only [hp, if_true, mapLeaf_removeEdge]
    exact key _
  · simp only [hp]
    exact key _

theorem mapLeaf_simplifySum (n : Node) : (g.mapLeaf f).simplifySum n = (g.simplifySum n).map (mapLeaf f) := by
  unfold simplifySum
  rw [mapLeaf_succ, mapLeaf_logWeights]
  have key : ∀ cs : List Node, (do
      let ws ← g.logWeights n
      (ws.zip cs).foldlM (simplifySumChild n) (g.mapLeaf f) : Except PyErr (Graph D')) =
      ((do
      let ws ← g.logWeights n
      (ws.zip cs).foldlM (simplifySumChild n) g : Except PyErr (Graph D))).map (mapLeaf f) := by
    intro cs
    cases g.logWeights n with
    | error e => rfl
    | ok ws => exact mapLeaf_foldlM f _ _ (fun g p => mapLeaf_simplifySumChild f g n p) _ _
  rcases g.succ n with - | ⟨c, - | ⟨c', cs⟩⟩
  · exact key []
  · show Except.ok _ = Except.ok _
    rw [mapLeaf_connectIncoming, mapLeaf_removeNode]
  · exact key _

theorem mapLeaf_simplifyProdChild (c : Node) : (g.mapLeaf f).simplifyProdChild c = (g.simplifyProdChild c).mapLeaf f := by
  unfold simplifyProdChild
  rw [mapLeaf_kind?, mapLeaf_succ]
  cases g.kind? c with
  | none => rfl
  | some k =>
    cases k with
    | leaf d => rfl
    | sum => rfl
    | prod => exact mapLeaf_foldl f _ _ (fun g e => mapLeaf_addEdge f g _ _ _) _ _

theorem mapLeaf_simplifyProd (n : Node) : (g.mapLeaf f).simplifyProd n = (g.simplifyProd n).mapLeaf f := by
  unfold simplifyProd
  rw [mapLeaf_succ]
  rcases g.succ n with - | ⟨c, - | ⟨c', cs⟩⟩
  · rfl
  · show removeNode _ n = _
    rw [mapLeaf_connectIncoming, mapLeaf_removeNode]
  · exact mapLeaf_foldl f _ _ (fun g e => mapLeaf_simplifyProdChild f g _) _ _

theorem mapLeaf_simplifyUnit (n : Node) : (g.mapLeaf f).simplifyUnit n = (g.simplifyUnit n).map (mapLeaf f) := by
  unfold simplifyUnit
  rw [mapLeaf_kind?]
  cases g.kind? n with
  | none => rfl
  | some k =>
    cases k with
    | leaf d => rfl
    | sum => exact mapLeaf_simplifySum f g n
    | prod => exact congrArg Except.ok (mapLeaf_simplifyProd f g n)

theorem mapLeaf_simplify : (g.mapLeaf f).simplify = g.simplify.map (mapLeaf f) := by
  unfold simplify
  rw [mapLeaf_root]
  cases g.root with
  | error e => rfl
  | ok r =>
    show List.foldlM _ _ _ = _
    rw [mapLeaf_bottomUp]
    exact mapLeaf_foldlM f _ _ (fun g n => mapLeaf_simplifyUnit f g n) _ _

theorem mapLeaf_normalizeUnit (n : Node) : (g.mapLeaf f).normalizeUnit n = (g.normalizeUnit n).map (mapLeaf f) := by
  unfold normalizeUnit
  rw [mapLeaf_logWeights]
  cases g.logWeights n with
  | error e => rfl
  | ok ws => cases ws <;> rfl

theorem mapLeaf_sumNodes : (g.mapLeaf f).sumNodes = g.sumNodes := by
  unfold sumNodes mapLeaf
  simp only [List.filter_map, List.map_map]
  have : (fun p : Node × Kind D' => isSum p.2) ∘ (fun p : Node × Kind D => (p.1, p.2.map f)) = fun p => isSum p.2 := by
    funext p; obtain ⟨n, k⟩ := p; cases k <;> rfl
  rw [this]; rfl

theorem mapLeaf_normalize : (g.mapLeaf f).normalize = g.normalize.map (mapLeaf f) := by
  unfold normalize
  rw [mapLeaf_sumNodes]
  exact mapLeaf_foldlM f _ _ (fun g n => mapLeaf_normalizeUnit f g n) _ _

theorem mapLeaf_induced (keep : Node → Bool) : (g.mapLeaf f).induced keep = (g.induced keep).mapLeaf f := by
  unfold induced mapLeaf
  simp only [List.filter_map]
  rfl

theorem mapLeaf_removeUnreachable (r : Node) : (g.mapLeaf f).removeUnreachable r = (g.removeUnreachable r).mapLeaf f := by
  unfold removeUnreachable
  rw [mapLeaf_layersFrom, mapLeaf_induced]

theorem mapLeaf_edgeView : (g.mapLeaf f).edgeView = g.edgeView := by
  unfold edgeView; rw [mapLeaf_ids]; rfl

theorem mapLeaf_copyAt (off : ℕ) : (g.mapLeaf f).copyAt off = (g.copyAt off).mapLeaf f := by
  have h := mapLeaf_edgeView f g
  unfold copyAt
  rw [h]
  simp [mapLeaf]

theorem mapLeaf_setLeaf (n : Node) (d : D) : (g.mapLeaf f).setLeaf n (f d) = (g.setLeaf n d).mapLeaf f := by
  unfold setLeaf mapLeaf
  simp only [List.map_map]
  congr 1
  apply List.map_congr_left
  intro p _
  simp only [Function.comp]
  split <;> rfl

theorem mapLeaf_rerouteLeaf (n : Node) (ps : List (D × LogP)) :
    (g.mapLeaf f).rerouteLeaf n (ps.map fun q => (f q.1, q.2)) = (g.rerouteLeaf n ps).mapLeaf f := by
  unfold rerouteLeaf
  simp only
  rw [← mapLeaf_removeNode, ← mapLeaf_connectIncoming, mapLeaf_fresh]
  congr 2
  simp only [mapLeaf, List.map_append, List.map_cons, List.zipIdx_map, List.map_map]
  rfl

theorem mapLeaf_expandLeaf (n : Node) (ps : List (D × LogP)) :
    (g.mapLeaf f).expandLeaf n (ps.map fun q => (f q.1, q.2)) = (g.expandLeaf n ps).map (mapLeaf f) := by
  unfold expandLeaf
  rw [mapLeaf_rerouteLeaf, mapLeaf_normalizeUnit, mapLeaf_fresh]

theorem mapLeaf_evalInner (m : Mem LogP) (n : Node) : (∀ d, g.kind? n ≠ some (.leaf d)) →
    (g.mapLeaf f).evalUnit logForwardAlg m n = g.evalUnit logForwardAlg m n := by
  intro hk
  unfold evalUnit
  rw [mapLeaf_kind?]
  cases h : g.kind? n with
  | none => rfl
  | some k =>
    cases k with
    | leaf d => exact absurd h (hk d)
    | sum => rfl
    | prod => rfl

theorem mapLeaf_mountBelow (s : Node) (h : Graph D) (r : Node) (w : LogP) :
    (g.mapLeaf f).mountBelow s (h.mapLeaf f) r w = (g.mountBelow s h r w).mapLeaf f := by
  unfold mountBelow
  simp only
  rw [mapLeaf_removeUnreachable, mapLeaf_fresh, mapLeaf_copyAt]
  simp only [mapLeaf, List.map_append]

theorem mapLeaf_mountAll : ∀ (l : List (Graph D × Mem LogP × LogP)) (acc : Graph D × List (LogP × Option LogP)),
    mountAll (l.map fun q => (q.1.mapLeaf f, q.2)) (acc.1.mapLeaf f, acc.2) =
      (mountAll l acc).map fun q => (q.1.mapLeaf f, q.2)
  | [], _ => rfl
  | (h, m, w) :: l, acc => by
    rw [List.map_cons]
    unfold mountAll
    simp only
    rw [mapLeaf_root]
    cases h.root with
    | error e => rfl
    | ok r =>
      show mountAll _ _ = Except.map _ (mountAll _ _)
      rw [mapLeaf_mountBelow]
      exact mapLeaf_mountAll l (acc.1.mountBelow 0 h r w, acc.2 ++ [(w, m r)])

theorem mapLeaf_possible : ∀ l : List (Option (Graph D × Mem LogP) × LogP),
    possible (l.map fun q => (q.1.map fun s => (s.1.mapLeaf f, s.2), q.2)) = (possible l).map fun q => (q.1.mapLeaf f, q.2)
  | [] => rfl
  | (some (g, m), p) :: l => by
    rw [List.map_cons]
    show (if p.isNegInf then possible _ else _ :: possible _) = _
    rw [mapLeaf_possible l]
    show _ = (if p.isNegInf then possible l else (g, m, p) :: possible l).map _
    split <;> rfl
  | (none, p) :: l => by
    rw [List.map_cons]
    exact mapLeaf_possible l

end PM.Graph
