import Verif.Jax.Json
import Verif.Jax.ToNxLemmas
import Verif.Props.Layers

/-! # C69: serialization of layered circuits -/

namespace PM.Props
open PM.Jax Spec LayerEx

/-- Every input layer is an instance of one class and has at least one node, and the sparse matrix of a product layer has one row per child
layer (`ProductLayer.validate`, `jax/inner_layer.py:567-570`). -/
inductive OneClass : Layer → Prop where
  | input (v : ℕ) (f : InputNode) (nodes : List InputNode) (same : ∀ f' ∈ nodes, f'.className = f.className) : OneClass (.input v (f :: nodes))
  | sparseSum (ws : List Coo) (cs : List Layer) (children : ∀ c ∈ cs, OneClass c) : OneClass (.sparseSum ws cs)
  | denseSum (ws : List (List (List LogP))) (cs : List Layer) (children : ∀ c ∈ cs, OneClass c) : OneClass (.denseSum ws cs)
  | product (n : ℕ) (es : List (List (ℕ × ℕ))) (cs : List Layer) (children : ∀ c ∈ cs, OneClass c) (rows : es.length = cs.length) :
      OneClass (.product n es cs)

theorem mapM_map_ok {α β γ : Type} {f : β → Except PyErr γ} {g : α → β} {h : α → γ} {l : List α} (H : ∀ a ∈ l, f (g a) = .ok (h a)) :
    (l.map g).mapM f = .ok (l.map h) := by
  induction l with
  | nil => rfl
  | cons a l ih =>
    rw [List.map_cons, List.mapM_cons, H a (by simp), ih fun b hb => H b (by simp [hb])]
    rfl

theorem nums_round (l : List ℝ) : numsFromJson (numsJson l) = .ok l := by
  have := mapM_map_ok (f := fun x : Json => do let y ← x.asNum; Except.ok y.toReal) (g := fun x : ℝ => Json.num (x : ℝ)) (h := id) (l := l)
    (fun a _ => by simp [Json.asNum, bind, Except.bind])
  simpa [numsFromJson, numsJson, Json.asArr, bind, Except.bind] using this

theorem log_round (l : LogP) : LogP.fromJson l.toJson = .ok l := by
  cases l with
  | negInf => simp [LogP.toJson, LogP.fromJson, Json.asNum, bind, Except.bind]
  | fin x => simp [LogP.toJson, LogP.fromJson, Json.asNum, bind, Except.bind]

theorem logs_round (l : List LogP) : logsFromJson (logsJson l) = .ok l := by
  have := mapM_map_ok (f := LogP.fromJson) (g := LogP.toJson) (h := id) (l := l) (fun a _ => log_round a)
  simpa [logsFromJson, logsJson, Json.asArr, bind, Except.bind] using this

theorem pair_round (p : ℕ × ℕ) : pairFromJson (pairJson p) = .ok p := by
  simp [pairFromJson, pairJson, Json.asArr, Json.asInt, bind, Except.bind]

theorem coo_round (w : Coo) : Coo.fromJson w.toJson = .ok w := by
  obtain ⟨r, c, es⟩ := w
  have h1 := mapM_map_ok (f := pairFromJson) (g := fun e : ℕ × ℕ × LogP => pairJson (e.1, e.2.1)) (h := fun e => (e.1, e.2.1)) (l := es)
    (fun a _ => pair_round _)
  simp only [Coo.fromJson, Coo.toJson, Json.asArr, bind, Except.bind, logs_round, h1, pair_round]
  rw [List.zip_map', List.map_map]
  simp [Function.comp_def]

theorem edges_round (n : ℕ) (es : List (List (ℕ × ℕ))) : edgesFromJson (edgesJson n es) = .ok (n, es) := by
  have h1 := mapM_map_ok (f := pairFromJson) (g := fun e : ℕ × ℕ × ℕ => pairJson (e.1, e.2.1)) (h := fun e => (e.1, e.2.1))
    (l := edgeEntries es) (fun a _ => pair_round _)
  have h2 := mapM_map_ok (f := Json.asInt) (g := fun e : ℕ × ℕ × ℕ => Json.int e.2.2) (h := fun e => (e.2.2 : ℤ)) (l := edgeEntries es)
    (fun a _ => rfl)
  simp only [edgesFromJson, edgesJson, Json.asArr, bind, Except.bind, h1, h2, pair_round, Except.ok.injEq, Prod.mk.injEq, true_and]
  rw [List.zip_map']
  simp only [List.filter_map, List.map_map, Function.comp_def, Int.toNat_natCast]
  have key : ∀ (es : List (List (ℕ × ℕ))) (s i : ℕ), (((es.zipIdx s).flatMap fun p => p.1.map fun e => (p.2, e.1, e.2)).filter
      fun p => p.1 == s + i).map (fun p => (p.2.1, p.2.2)) = es.getD i [] := by
    intro es
    induction es with
    | nil => intro s i; simp
    | cons row es ih =>
      intro s i
      rw [List.zipIdx_cons, List.flatMap_cons, List.filter_append, List.map_append]
      cases i with
      | zero =>
        have h0 : ((es.zipIdx (s + 1)).flatMap fun p => p.1.map fun e => (p.2, e.1, e.2)).filter (fun p => p.1 == s + 0) = [] := by
          rw [List.filter_eq_nil_iff]
          intro q hq
          obtain ⟨p, hp, hq⟩ := List.mem_flatMap.1 hq
          obtain ⟨e, -, rfl⟩ := List.mem_map.1 hq
          have := List.le_snd_of_mem_zipIdx hp
          simp only [beq_iff_eq]
          omega
        rw [h0, List.filter_eq_self.2 (by simp only [List.mem_map]; rintro q ⟨e, -, rfl⟩; simp)]
        simp
      | succ i =>
        have h0 : (row.map fun e => (s, e.1, e.2)).filter (fun p => p.1 == s + (i + 1)) = [] := by
          rw [List.filter_eq_nil_iff]
          intro q hq
          obtain ⟨e, -, rfl⟩ := List.mem_map.1 hq
          simp
        have := ih (s + 1) i
        rw [show s + 1 + i = s + (i + 1) by omega] at this
        rw [h0, this]
        simp
  apply List.ext_getElem (by simp)
  intro i h1 h2
  have := key es 0 i
  simp only [Nat.zero_add] at this
  rw [List.getElem_map, List.getElem_range, edgeEntries, this, List.getD_eq_getElem]

theorem input_round (v : ℕ) (f : InputNode) (nodes : List InputNode) (same : ∀ f' ∈ nodes, f'.className = f.className) :
    Layer.fromJson (Layer.toJson (.input v (f :: nodes))) = .ok (.input v (f :: nodes)) := by
  have hall : ∀ f' ∈ f :: nodes, f'.className = f.className := by simpa using same
  rw [Layer.toJson, inputJson]
  generalize hN : f :: nodes = N at hall
  cases f with
  | uniform lo hi =>
    have : ∃ ps : List (ℝ × ℝ), N = ps.map fun p => .uniform p.1 p.2 := by
      clear hN same
      induction N with
      | nil => exact ⟨[], rfl⟩
      | cons g N ih =>
        obtain ⟨ps, rfl⟩ := ih fun f' hf' => hall f' (by simp [hf'])
        have := hall g (by simp)
        cases g with
        | uniform a b => exact ⟨(a, b) :: ps, rfl⟩
        | _ => simp [InputNode.className] at this
    obtain ⟨ps, rfl⟩ := this
    have h1 := mapM_map_ok (f := uniformFromJson) (g := fun p : ℝ × ℝ => numsJson [p.1, p.2]) (h := fun p => InputNode.uniform p.1 p.2)
      (l := ps) (fun a _ => by simp [uniformFromJson, nums_round, bind, Except.bind])
    rw [Layer.fromJson]
    simp only [InputNode.className, inputFields, List.filterMap_map, Function.comp_def, List.filterMap_eq_map']
    simp [Json.get, Json.asStr, isInputClass, inputFromJson, Json.asInt, Json.asArr, bind, Except.bind, h1]
  | dirac loc cap =>
    have : ∃ ps : List (ℝ × ℝ), N = ps.map fun p => .dirac p.1 p.2 := by
      clear hN same
      induction N with
      | nil => exact ⟨[], rfl⟩
      | cons g N ih =>
        obtain ⟨ps, rfl⟩ := ih fun f' hf' => hall f' (by simp [hf'])
        have := hall g (by simp)
        cases g with
        | dirac a b => exact ⟨(a, b) :: ps, rfl⟩
        | _ => simp [InputNode.className] at this
    obtain ⟨ps, rfl⟩ := this
    rw [Layer.fromJson]
    simp only [InputNode.className, inputFields, List.filterMap_map, Function.comp_def, List.filterMap_eq_map']
    simp [Json.get, Json.asStr, isInputClass, inputFromJson, Json.asInt, bind, Except.bind, nums_round, List.zip_map']
  | gaussian loc ls ms =>
    have : ∃ ps : List (ℝ × ℝ × ℝ), N = ps.map fun p => .gaussian p.1 p.2.1 p.2.2 := by
      clear hN same
      induction N with
      | nil => exact ⟨[], rfl⟩
      | cons g N ih =>
        obtain ⟨ps, rfl⟩ := ih fun f' hf' => hall f' (by simp [hf'])
        have := hall g (by simp)
        cases g with
        | gaussian a b c => exact ⟨(a, b, c) :: ps, rfl⟩
        | _ => simp [InputNode.className] at this
    obtain ⟨ps, rfl⟩ := this
    rw [Layer.fromJson]
    simp only [InputNode.className, inputFields, List.filterMap_map, Function.comp_def, List.filterMap_eq_map']
    simp [Json.get, Json.asStr, isInputClass, inputFromJson, Json.asInt, bind, Except.bind, nums_round, List.zip_map']
  | discrete logs =>
    have : ∃ ps : List (List LogP), N = ps.map fun p => .discrete p := by
      clear hN same
      induction N with
      | nil => exact ⟨[], rfl⟩
      | cons g N ih =>
        obtain ⟨ps, rfl⟩ := ih fun f' hf' => hall f' (by simp [hf'])
        have := hall g (by simp)
        cases g with
        | discrete a => exact ⟨a :: ps, rfl⟩
        | _ => simp [InputNode.className] at this
    obtain ⟨ps, rfl⟩ := this
    have h1 := mapM_map_ok (f := discreteFromJson) (g := fun p : List LogP => logsJson p) (h := fun p => InputNode.discrete p)
      (l := ps) (fun a _ => by simp [discreteFromJson, logs_round, bind, Except.bind])
    rw [Layer.fromJson]
    simp only [InputNode.className, inputFields, List.filterMap_map, Function.comp_def, List.filterMap_eq_map']
    simp [Json.get, Json.asStr, isInputClass, inputFromJson, Json.asInt, Json.asArr, bind, Except.bind, h1]

theorem fromJson_inner {j : Json} {t : String} {js : List Json} {cs : List Layer} (ht : j.get "type" = .ok (.str t))
    (hi : isInputClass t = false) (hj : childJsons j = .ok js) (hc : layersFromJson js = .ok cs) : Layer.fromJson j = innerFromJson t j cs := by
  rw [Layer.fromJson]
  simp only [ht, Json.asStr, bind, Except.bind, hi, Bool.false_eq_true, if_false]
  split
  · rename_i e he
    rw [hj] at he
    cases he
  · rename_i js' he
    rw [hj] at he
    injection he with he
    subst he
    rw [hc]

theorem layer_round : ∀ L : Layer, OneClass L → Layer.fromJson L.toJson = .ok L := by
  refine Layer.induct fun L ih h => ?_
  have kids : ∀ cs : List Layer, (∀ c ∈ cs, Layer.fromJson c.toJson = .ok c) → layersFromJson (layersJson cs) = .ok cs := by
    intro cs
    induction cs with
    | nil => intro _; simp [layersJson, layersFromJson]
    | cons c cs ihc =>
      intro hc
      rw [layersJson, layersFromJson, hc c (by simp), ihc fun c' h => hc c' (by simp [h])]
      rfl
  cases h with
  | input v f nodes same => exact input_round v f nodes same
  | sparseSum ws cs children =>
    have hk := kids cs fun c hc => ih c hc (children c hc)
    have h1 := mapM_map_ok (f := Coo.fromJson) (g := Coo.toJson) (h := id) (l := ws) (fun a _ => coo_round a)
    rw [List.map_id] at h1
    rw [Layer.toJson, fromJson_inner rfl rfl rfl hk]
    simp [innerFromJson, Json.get, Json.asArr, bind, Except.bind, h1]
  | denseSum ws cs children =>
    have hk := kids cs fun c hc => ih c hc (children c hc)
    have h1 := mapM_map_ok (f := denseFromJson) (g := fun w : List (List LogP) => Json.arr (w.map logsJson)) (h := id) (l := ws)
      (fun a _ => by
        have := mapM_map_ok (f := logsFromJson) (g := logsJson) (h := id) (l := a) (fun b _ => logs_round b)
        simpa [denseFromJson, Json.asArr, bind, Except.bind] using this)
    rw [List.map_id] at h1
    rw [Layer.toJson, fromJson_inner rfl rfl rfl hk]
    simp [innerFromJson, Json.get, Json.asArr, bind, Except.bind, h1]
  | product n es cs children rows =>
    have hk := kids cs fun c hc => ih c hc (children c hc)
    rw [Layer.toJson, fromJson_inner rfl rfl rfl hk]
    simp [innerFromJson, Json.get, bind, Except.bind, edges_round]

/-- **C69.** Reading what `to_json` wrote succeeds and gives a layered circuit with the same variables and layers: the same nesting, classes,
edges, weights and parameters, hence the same answers. -/
theorem C69_json_round_trip (m : Model) (hv : m.vars.Pairwise (· < ·)) (h : OneClass m.root) : Model.fromJson m.toJson = .ok m := by
  obtain ⟨vs, root⟩ := m
  have h1 := mapM_map_ok (f := Json.asInt) (g := fun v : ℕ => Json.int v) (h := fun v => (v : ℤ)) (l := vs) (fun a _ => rfl)
  have hu : uniqueSorted vs = vs := by
    have hn : vs.Nodup := hv.imp fun h => h.ne
    rw [uniqueSorted, hn.dedup]
    exact List.Pairwise.insertionSort_eq (hv.imp fun h => h.le)
  have e1 : (Model.toJson ⟨vs, root⟩).get "variables" = .ok (.arr (vs.map fun v : ℕ => .int v)) := rfl
  have e2 : (Model.toJson ⟨vs, root⟩).get "root" = .ok root.toJson := rfl
  have e3 : (vs.map fun v : ℕ => (v : ℤ)).map Int.toNat = vs := by
    rw [List.map_map, show Int.toNat ∘ (fun v : ℕ => (v : ℤ)) = id from rfl, List.map_id]
  simp only [Model.fromJson, bind, Except.bind, e1, e2, Json.asArr, h1, layer_round root h, e3, hu]

/-- A mixture of a product of a normal distribution and a distribution over two states, and weights of zero. -/
noncomputable def jsonModel : Model where
  vars := [2, 5]
  root := .sparseSum [⟨1, 2, [(0, 0, .fin 0), (0, 1, .negInf)]⟩]
    [.product 2 [[(0, 0), (1, 1)], [(0, 0), (1, 0)]]
      [.input 0 [.gaussian 0 1 (1 / 100), .gaussian 3 0 (1 / 100)], .denseSum [[[.fin 0]]] [.input 1 [.discrete [.fin 0, .negInf]]]]]

/-- The hypotheses of C69 are met by `jsonModel`. -/
example : jsonModel.vars.Pairwise (· < ·) ∧ OneClass jsonModel.root := by
  refine ⟨by simp [jsonModel], .sparseSum _ _ ?_⟩
  simp only [List.mem_singleton, forall_eq]
  refine .product _ _ _ ?_ rfl
  simp only [List.mem_cons, List.not_mem_nil, or_false, forall_eq_or_imp, forall_eq]
  refine ⟨.input _ _ _ (by simp [InputNode.className]), .denseSum _ _ ?_⟩
  simp only [List.mem_singleton, forall_eq]
  exact .input _ _ _ (by simp)

end PM.Props
