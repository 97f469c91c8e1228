import Verif.Jax.ConvertLayers

/-! Helper lemmas: the conversion level by level. -/

namespace PM.Jax
open Graph Spec Classical

theorem typeOf_unmixed {env : Env} {g : Circuit} {r : Node} {sc : Node → Finset Var} (S : Setting env g r sc) {n m : Node} (h : n ∈ g.ids)
    (h' : m ∈ g.ids) (hn : typeOf g n = .truncGaussian) : typeOf g m ≠ .gaussian := by
  intro hm
  obtain ⟨k, hk⟩ := exists_kind? h
  obtain ⟨k', hk'⟩ := exists_kind? h'
  rw [typeOf, hk] at hn
  rw [typeOf, hk'] at hm
  cases k with
  | leaf d =>
    cases k' with
    | leaf d' =>
      cases d <;> simp [unitType] at hn
      cases d' <;> simp [unitType] at hm
      exact S.unmixed _ _ _ _ hk' _ _ _ _ _ hk
    | _ => simp [unitType] at hm
  | _ => simp [unitType] at hn

theorem createLayer_good {env : Env} {g : Circuit} {r : Node} {sc : Node → Finset Var} (S : Setting env g r sc)
    {level next : List Node} {cs : List Converter} (hc : Covered env g sc (sc r) next cs) (hl : ∀ n ∈ level, n ∈ g.ids)
    (hnext : ∀ n ∈ next, n ∈ g.ids) (hch : ∀ n ∈ level, ∀ d ∈ g.succ n, d ∈ next) (hconv : ConvertibleLevel g sc level next)
    {scope : Node → Except PyErr (Finset Var)} (hscope : ∀ n ∈ g.ids, scope n = .ok (sc n))
    (t : UnitType) (s : Finset Var) (nodes : List Node) (hne : nodes ≠ [])
    (hnodes : ∀ n, n ∈ nodes ↔ n ∈ level ∧ typeOf g n = t ∧ sc n = s) :
    ∃ c, createLayer env g scope ((sc r).sort (· ≤ ·)) t s nodes cs = .ok c ∧ c.nodes = nodes ∧ Faithful env g sc (sc r) s c := by
  by_cases h1 : t = .sum
  · subst h1
    exact sumLayer_good S hc hl hnext hch hconv s nodes hne hnodes
  by_cases h2 : t = .prod
  · subst h2
    exact productLayer_good S hc hl hnext hch hconv hscope s nodes hne hnodes
  have hleaf : t.isLeaf := by cases t <;> simp_all [UnitType.isLeaf]
  have : createLayer env g scope ((sc r).sort (· ≤ ·)) t s nodes cs = inputLayer env g ((indicesOf (sc r) s).headD 0) nodes := by
    cases t <;> first | rfl | simp_all
  rw [this]
  exact inputLayer_good S hl s t hleaf nodes hne hnodes

theorem createLayers_covered {env : Env} {g : Circuit} {r : Node} {sc : Node → Finset Var} (S : Setting env g r sc)
    (shuffle : {α : Type} → List α → List α) (hshuffle : ∀ {α : Type} (l : List α), (shuffle l).Perm l)
    {level next : List Node} {cs : List Converter} (hc : Covered env g sc (sc r) next cs) (hl : ∀ n ∈ level, n ∈ g.ids)
    (hnext : ∀ n ∈ next, n ∈ g.ids) (hch : ∀ n ∈ level, ∀ d ∈ g.succ n, d ∈ next) (hconv : ConvertibleLevel g sc level next)
    {scope : Node → Except PyErr (Finset Var)} (hscope : ∀ n ∈ g.ids, scope n = .ok (sc n)) :
    ∃ cs', createLayers env shuffle g scope ((sc r).sort (· ≤ ·)) level cs = .ok cs' ∧ Covered env g sc (sc r) level cs' := by
  set types := shuffle (level.map (typeOf g)).dedup with htypes
  have hmt : ∀ t, t ∈ types ↔ ∃ n ∈ level, typeOf g n = t := by
    intro t
    rw [htypes, (hshuffle _).mem_iff, List.mem_dedup, List.mem_map]
  have hnt : types.Nodup := (hshuffle _).nodup_iff.2 (List.nodup_dedup _)
  let ofType : UnitType → List Node := fun t => level.filter fun n => (typeOf g n).isInstance t
  have hof : ∀ t ∈ types, ∀ n, n ∈ ofType t ↔ n ∈ level ∧ typeOf g n = t := by
    intro t ht n
    simp only [ofType, List.mem_filter, UnitType.isInstance, Bool.or_eq_true, beq_iff_eq, Bool.and_eq_true]
    constructor
    · rintro ⟨h1, h2 | h2⟩
      · exact ⟨h1, h2⟩
      · obtain ⟨m, hm, hmt'⟩ := (hmt t).1 ht
        exact absurd (hmt'.trans h2.2) (typeOf_unmixed S (hl n h1) (hl m hm) h2.1)
    · rintro ⟨h1, h2⟩
      exact ⟨h1, Or.inl h2⟩
  let scopes : UnitType → List (Finset Var) := fun t => shuffle ((ofType t).map sc).dedup
  have hms : ∀ t ∈ types, ∀ s, s ∈ scopes t ↔ ∃ n ∈ level, typeOf g n = t ∧ sc n = s := by
    intro t ht s
    simp only [scopes]
    rw [(hshuffle _).mem_iff, List.mem_dedup, List.mem_map]
    constructor
    · rintro ⟨n, hn, hs⟩
      exact ⟨n, ((hof t ht n).1 hn).1, ((hof t ht n).1 hn).2, hs⟩
    · rintro ⟨n, hn, hnt, hs⟩
      exact ⟨n, (hof t ht n).2 ⟨hn, hnt⟩, hs⟩
  have hns : ∀ t, (scopes t).Nodup := fun t => (hshuffle _).nodup_iff.2 (List.nodup_dedup _)
  let members : UnitType → Finset Var → List Node := fun t s =>
    (((ofType t).zip ((ofType t).map sc)).filter fun p => p.2 = s).map Prod.fst
  have hmf : ∀ t s, members t s = (ofType t).filter fun n => sc n = s := by
    intro t s
    simp only [members]
    induction ofType t with
    | nil => rfl
    | cons x l ih =>
      rw [List.map_cons, List.zip_cons_cons]
      by_cases h : sc x = s
      · rw [List.filter_cons_of_pos (by simpa using h), List.filter_cons_of_pos (by simpa using h), List.map_cons, ih]
      · rw [List.filter_cons_of_neg (by simpa using h), List.filter_cons_of_neg (by simpa using h), ih]
  have hmm : ∀ t ∈ types, ∀ s n, n ∈ members t s ↔ n ∈ level ∧ typeOf g n = t ∧ sc n = s := by
    intro t ht s n
    rw [hmf, List.mem_filter, hof t ht, decide_eq_true_eq, and_assoc]
  have hex : ∀ t s, ∃ c : Converter, t ∈ types → s ∈ scopes t → createLayer env g scope ((sc r).sort (· ≤ ·)) t s (members t s) cs = .ok c ∧
      c.nodes = members t s ∧ Faithful env g sc (sc r) s c := by
    intro t s
    by_cases h : t ∈ types ∧ s ∈ scopes t
    · obtain ⟨ht, h⟩ := h
      obtain ⟨n, hn⟩ := (hms t ht s).1 h
      obtain ⟨c, hc⟩ := createLayer_good S hc hl hnext hch hconv hscope t s (members t s)
        (List.ne_nil_of_mem ((hmm t ht s n).2 hn)) (hmm t ht s)
      exact ⟨c, fun _ _ => hc⟩
    · exact ⟨⟨.input 0 [], []⟩, fun h1 h2 => absurd ⟨h1, h2⟩ h⟩
  choose conv hconvs using hex
  have hmapM : ∀ t ∈ types, layersOfType env shuffle g scope ((sc r).sort (· ≤ ·)) level cs t = .ok ((scopes t).map (conv t)) := by
    intro t ht
    obtain ⟨n₁, hn₁, ht₁⟩ := (hmt t).1 ht
    have hhead : layerType g level (ofType t) t = .ok t := by
      have hne : ofType t ≠ [] := List.ne_nil_of_mem ((hof t ht n₁).2 ⟨hn₁, ht₁⟩)
      cases hlev : level with
      | nil => rw [hlev] at hn₁; simp at hn₁
      | cons n l =>
        cases ho : ofType t with
        | nil => exact absurd ho hne
        | cons m l' =>
          have hm : m ∈ ofType t := by rw [ho]; simp
          obtain ⟨hm1, hm2⟩ := (hof t ht m).1 hm
          simp only [layerType]
          by_cases h : (typeOf g n).isLeaf = true
          · have := hconv.leafFirst n (by rw [hlev]; rfl) h m hm1
            rw [if_pos h, if_pos this, hm2]
          · rw [if_neg h]
    have hsc : (ofType t).mapM scope = .ok ((ofType t).map sc) :=
      mapM_ok_map fun n hn => hscope n (hl n ((hof t ht n).1 hn).1)
    rw [layersOfType]
    simp only [ofType] at hhead hsc
    rw [hhead]
    simp only [bind, Except.bind]
    rw [hsc]
    exact mapM_ok_map fun s hs => (hconvs t s ht hs).1
  have hres : createLayers env shuffle g scope ((sc r).sort (· ≤ ·)) level cs = .ok (types.map fun t => (scopes t).map (conv t)).flatten := by
    rw [createLayers, mapM_ok_map hmapM]
    rfl
  refine ⟨_, hres, ⟨?_, ?_, ?_⟩⟩
  · intro c hcm
    obtain ⟨l, hlm, hcl⟩ := List.mem_flatten.1 hcm
    obtain ⟨t, ht, rfl⟩ := List.mem_map.1 hlm
    obtain ⟨s, hs, rfl⟩ := List.mem_map.1 hcl
    obtain ⟨-, hnodes, hf⟩ := hconvs t s ht hs
    refine ⟨?_, ?_, ?_, ?_, ?_⟩
    · obtain ⟨n, hn⟩ := (hms t ht s).1 hs
      rw [hnodes]
      exact List.ne_nil_of_mem ((hmm t ht s n).2 hn)
    · rw [hnodes, hmf]
      exact List.filter_sublist.trans List.filter_sublist
    · intro n hn
      rw [hnodes] at hn
      exact ((hmm t ht s n).1 hn).1
    · intro n hn m hm
      rw [hnodes] at hn ⊢
      obtain ⟨-, h2, h3⟩ := (hmm t ht s n).1 hn
      rw [hmm t ht, h2, h3]
      simp [hm]
    · intro n hn
      rw [hnodes] at hn
      rw [((hmm t ht s n).1 hn).2.2]
      exact hf
  · intro n hn
    have ht : typeOf g n ∈ types := (hmt _).2 ⟨n, hn, rfl⟩
    have hs : sc n ∈ scopes (typeOf g n) := (hms _ ht _).2 ⟨n, hn, rfl, rfl⟩
    refine ⟨conv (typeOf g n) (sc n), List.mem_flatten.2 ⟨_, List.mem_map.2 ⟨_, ht, rfl⟩, List.mem_map.2 ⟨_, hs, rfl⟩⟩, ?_⟩
    rw [(hconvs _ _ ht hs).2.1]
    exact (hmm _ ht _ n).2 ⟨hn, rfl, rfl⟩
  · rw [List.pairwise_flatten]
    refine ⟨?_, ?_⟩
    · intro l hlm
      obtain ⟨t, ht, rfl⟩ := List.mem_map.1 hlm
      rw [List.pairwise_map]
      refine (hns t).imp_of_mem ?_
      intro s s' hs hs' hne n hn hn'
      rw [(hconvs t s ht hs).2.1, hmm t ht] at hn
      rw [(hconvs t s' ht hs').2.1, hmm t ht] at hn'
      exact hne (hn.2.2.symm.trans hn'.2.2)
    · rw [List.pairwise_map]
      refine hnt.imp_of_mem ?_
      intro t t' ht ht' hne c hcm c' hcm' n hn hn'
      obtain ⟨s, hs, rfl⟩ := List.mem_map.1 hcm
      obtain ⟨s', hs', rfl⟩ := List.mem_map.1 hcm'
      rw [(hconvs t s ht hs).2.1, hmm t ht] at hn
      rw [(hconvs t' s' ht' hs').2.1, hmm t' ht'] at hn'
      exact hne (hn.2.1.symm.trans hn'.2.1)

theorem levels_covered {env : Env} {g : Circuit} {r : Node} {sc : Node → Finset Var} (S : Setting env g r sc)
    (shuffle : {α : Type} → List α → List α) (hshuffle : ∀ {α : Type} (l : List α), (shuffle l).Perm l)
    {scope : Node → Except PyErr (Finset Var)} (hscope : ∀ n ∈ g.ids, scope n = .ok (sc n)) :
    ∀ (ls : List (List Node)), (∀ l ∈ ls, ∀ n ∈ l, n ∈ g.ids) → Strat g ls → ConvertibleLevels g sc ls →
      ∃ cs, ls.reverse.foldlM
        (fun children nodes => createLayers env shuffle g scope ((sc r).sort (· ≤ ·)) nodes children) [] = .ok cs ∧
        Covered env g sc (sc r) (ls.headD []) cs
  | [], _, _, _ => ⟨[], rfl, ⟨by simp, by simp, by simp⟩⟩
  | l :: ls, hi, hs, hconv => by
    obtain ⟨cs, h1, h2⟩ := levels_covered S shuffle hshuffle hscope ls (fun l' hl' => hi l' (by simp [hl'])) hs.2 hconv.2
    have hnext : ∀ n ∈ ls.headD [], n ∈ g.ids := by
      cases ls with
      | nil => simp
      | cons l' ls => exact fun n hn => hi l' (by simp) n hn
    obtain ⟨cs', h3, h4⟩ := createLayers_covered S shuffle hshuffle h2 (hi l (by simp)) hnext hs.1 hconv.1 hscope
    refine ⟨cs', ?_, h4⟩
    rw [List.reverse_cons, List.foldlM_append, h1]
    simp only [bind, Except.bind, List.foldlM_cons, List.foldlM_nil, h3]
    rfl

/-- The conversion succeeds, and the root layer has the value of the root. -/
theorem fromNx_spec {env : Env} {g : Circuit} {r : Node} {sc : Node → Finset Var} (S : Setting env g r sc)
    (shuffle : {α : Type} → List α → List α) (hshuffle : ∀ {α : Type} (l : List α), (shuffle l).Perm l)
    (hconv : ConvertibleLevels g sc (g.layersFrom r)) :
    ∃ c : Converter, fromNx env shuffle g = .ok c.layer ∧ c.nodes = [r] ∧ Faithful env g sc (sc r) (sc r) c := by
  have hri := (root_mem S.layered.root).1
  obtain ⟨rank, hrank, hb⟩ := S.layered.graded.acyclic.bounded S.layered.wf
  have hscope : ∀ n ∈ g.ids, g.varsOf (g.nodes.length + 1) n = .ok (sc n) := fun n hn =>
    varsOf_eq S.layered.wf S.smooth hrank _ _ (Nat.lt_succ_of_le (hb n)) hn
  obtain ⟨depth, hd⟩ := S.layered.graded
  obtain ⟨hstrat, hdepth⟩ := layersFrom_strat S.layered.wf hd hri
  have hids : ∀ l ∈ g.layersFrom r, ∀ n ∈ l, n ∈ g.ids := fun l hl n hn =>
    reachable_mem_ids S.layered.wf hri (mem_layersFrom_reachable g (List.mem_flatten.2 ⟨l, hl, hn⟩))
  obtain ⟨cs, h1, h2⟩ := levels_covered S shuffle hshuffle hscope _ hids hstrat hconv
  rw [layersFrom_head hri] at h2
  obtain ⟨c, hc, hrc⟩ := h2.cover r (by simp)
  have hall : ∀ c' ∈ cs, r ∈ c'.nodes := by
    intro c' hc'
    obtain ⟨n, hn⟩ := List.exists_mem_of_ne_nil _ (h2.good c' hc').ne
    have := (h2.good c' hc').sub n hn
    rw [List.mem_singleton] at this
    exact this ▸ hn
  cases hcs : cs with
  | nil => rw [hcs] at hc; simp at hc
  | cons c₀ cs' =>
    have hc₀ : c₀ ∈ cs := by rw [hcs]; simp
    have hr₀ := hall c₀ hc₀
    refine ⟨c₀, ?_, ?_, (h2.good c₀ hc₀).faithful r hr₀⟩
    · simp only [fromNx, S.layered.root, circuitVars_eq S.layered.wf S.layered.graded.acyclic S.smooth S.layered.root, bind, Except.bind]
      rw [h1, hcs]
    · rcases List.sublist_singleton.1 (h2.good c₀ hc₀).sublist with h | h
      · exact absurd h (h2.good c₀ hc₀).ne
      · exact h

theorem mapM_ok_mem {α β : Type} {f : α → Except PyErr β} : ∀ {l : List α} {l' : List β}, l.mapM f = .ok l' → ∀ a ∈ l, ∃ b, f a = .ok b
  | [], _, _, _, ha => by simp at ha
  | x :: l, l', h, a, ha => by
    rw [List.mapM_cons] at h
    simp only [bind, Except.bind] at h
    cases hx : f x with
    | error e => rw [hx] at h; cases h
    | ok b =>
      rw [hx] at h
      cases hl : l.mapM f with
      | error e => rw [hl] at h; cases h
      | ok bs =>
        rcases List.mem_cons.1 ha with rfl | ha
        · exact ⟨b, hx⟩
        · exact mapM_ok_mem hl a ha

theorem foldlM_ok_mem {α σ : Type} {f : σ → α → Except PyErr σ} : ∀ {l : List α} {s out : σ}, l.foldlM f s = .ok out →
    ∀ a ∈ l, ∃ s' out', f s' a = .ok out'
  | [], _, _, _, _, ha => by simp at ha
  | x :: l, s, out, h, a, ha => by
    rw [List.foldlM_cons] at h
    simp only [bind, Except.bind] at h
    cases hx : f s x with
    | error e => rw [hx] at h; cases h
    | ok s' =>
      rw [hx] at h
      rcases List.mem_cons.1 ha with rfl | ha
      · exact ⟨s, s', hx⟩
      · exact foldlM_ok_mem h a ha

/-- A circuit with a single leaf unit. -/
theorem fromNx_leaf (env : Env) {shuffle : {α : Type} → List α → List α} (hshuffle : ∀ {α : Type} (l : List α), (shuffle l).Perm l)
    (d : Leaf) {F : InputNode} (hF : inputNode env d = .ok F) : fromNx env shuffle ⟨[(0, .leaf d)], []⟩ = .ok (.input 0 [F]) := by
  have hroot : (⟨[(0, .leaf d)], []⟩ : Circuit).root = .ok 0 := rfl
  have hvars : (⟨[(0, .leaf d)], []⟩ : Circuit).circuitVars = .ok {d.var} := rfl
  have hlev : (⟨[(0, .leaf d)], []⟩ : Circuit).layersFrom 0 = [[0]] := rfl
  have hsort : ({d.var} : Finset Var).sort (· ≤ ·) = [d.var] := by simp
  have hone : ∀ {α : Type} (a : α), shuffle [a] = [a] := fun a => List.perm_singleton.1 (hshuffle [a])
  have hded : ∀ {α : Type} [DecidableEq α] (a : α), [a].dedup = [a] := fun a => by
    rw [List.dedup_eq_self]
    exact List.nodup_singleton a
  have hleaf : (typeOf (⟨[(0, .leaf d)], []⟩ : Circuit) 0).isLeaf = true := by cases d <;> rfl
  have hin : inputOf env (⟨[(0, .leaf d)], []⟩ : Circuit) 0 = .ok F := by rw [← hF]; rfl
  have hscope : (⟨[(0, .leaf d)], []⟩ : Circuit).varsOf 2 0 = .ok {d.var} := rfl
  have hty : createLayer env (⟨[(0, .leaf d)], []⟩ : Circuit) ((⟨[(0, .leaf d)], []⟩ : Circuit).varsOf 2) [d.var]
      (typeOf (⟨[(0, .leaf d)], []⟩ : Circuit) 0) {d.var} [0] [] = .ok ⟨.input 0 [F], [0]⟩ := by
    have : createLayer env (⟨[(0, .leaf d)], []⟩ : Circuit) ((⟨[(0, .leaf d)], []⟩ : Circuit).varsOf 2) [d.var]
      (typeOf (⟨[(0, .leaf d)], []⟩ : Circuit) 0) {d.var} [0] []
      = inputLayer env (⟨[(0, .leaf d)], []⟩ : Circuit) (((({d.var} : Finset Var).sort (· ≤ ·)).map fun v => [d.var].idxOf v).headD 0) [0] := by
      cases d <;> rfl
    rw [this, hsort, inputLayer]
    simp [hin, bind, Except.bind, pure, Except.pure]
  have hlt : layersOfType env shuffle (⟨[(0, .leaf d)], []⟩ : Circuit) ((⟨[(0, .leaf d)], []⟩ : Circuit).varsOf 2) [d.var] [0] []
      (typeOf (⟨[(0, .leaf d)], []⟩ : Circuit) 0) = .ok [⟨.input 0 [F], [0]⟩] := by
    have hfil : ([0] : List Node).filter (fun n => (typeOf (⟨[(0, .leaf d)], []⟩ : Circuit) n).isInstance
        (typeOf (⟨[(0, .leaf d)], []⟩ : Circuit) 0)) = [0] := by simp [UnitType.isInstance]
    simp only [layersOfType, hfil, layerType, hleaf, if_true, bind, Except.bind, List.mapM_cons, List.mapM_nil, hscope, pure, Except.pure,
      hded, hone]
    simp [hty]
  simp only [fromNx, hroot, hvars, hlev, bind, Except.bind, hsort, List.reverse_cons, List.reverse_nil, List.nil_append, List.foldlM_cons,
    List.foldlM_nil, createLayers, List.map_cons, List.map_nil, hded, hone, List.mapM_cons, List.mapM_nil, pure, Except.pure,
    List.length_cons, List.length_nil, Nat.zero_add, Nat.reduceAdd, hlt]
  rfl

end PM.Jax
