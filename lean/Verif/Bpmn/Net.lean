import Verif.Bpmn.Build
import Verif.Convert.Theorems
/-
The net of a BPMN graph is a net and has the traces of the graph (C65).
-/
set_option linter.unusedSectionVars false
namespace Verif
namespace Bpmn
open Conv Sys

theorem le_bound (l : List Flow) : ∀ f ∈ l, flowPlace f < l.foldr (fun f b => max (flowPlace f + 1) b) 2 := by
  induction l with
  | nil => simp
  | cons x xs ih =>
    intro f hf
    rw [List.foldr_cons]
    rcases List.mem_cons.1 hf with rfl | hf
    · omega
    · have := ih f hf; omega

theorem bound_ge (l : List Flow) : 2 ≤ l.foldr (fun f b => max (flowPlace f + 1) b) 2 := by
  induction l with
  | nil => simp
  | cons x xs ih => rw [List.foldr_cons]; omega

theorem flow_lt {g : Graph} {f : Flow} (h : f ∈ g.flows) : flowPlace f < g.bound := le_bound _ f h
theorem two_le (g : Graph) : 2 ≤ g.bound := bound_ge _

/-- tokens taken and given lie on the source, the sink or on flows -/
theorem takes_lt {g : Graph} (ok : g.OK) {n : Node} (hn : n ∈ g.nodes) {I : List Nat} (hI : I ∈ g.takes n) : ∀ p ∈ I, p < g.bound := by
  have := two_le g
  rcases (mem_takes ok hn).1 hI with ⟨_, rfl⟩ | ⟨_, rfl⟩ | ⟨_, f, hf, _, rfl⟩
  · intro p hp; rw [List.mem_singleton] at hp; omega
  · intro p hp
    obtain ⟨f, hf, rfl⟩ := List.mem_map.1 hp
    exact flow_lt (List.mem_filter.1 hf).1
  · intro p hp; rw [List.mem_singleton] at hp; subst hp; exact flow_lt hf

theorem gives_lt {g : Graph} (ok : g.OK) {n : Node} (hn : n ∈ g.nodes) {I : List Nat} (hI : I ∈ g.gives n) : ∀ p ∈ I, p < g.bound := by
  have := two_le g
  rcases (mem_gives ok hn).1 hI with ⟨_, rfl⟩ | ⟨_, rfl⟩ | ⟨_, f, hf, _, rfl⟩
  · intro p hp; rw [List.mem_singleton] at hp; omega
  · intro p hp
    obtain ⟨f, hf, rfl⟩ := List.mem_map.1 hp
    exact flow_lt (List.mem_filter.1 hf).1
  · intro p hp; rw [List.mem_singleton] at hp; subst hp; exact flow_lt hf

theorem hubs_ok {g : Graph} (ok : g.OK) : HubsOK [] g.hubs := by
  have key : ∀ h ∈ g.hubs, ∃ n ∈ g.nodes, h = ⟨g.entP n.id, g.exiP n.id, g.takes n, g.gives n, n.label⟩ := by
    intro h hh
    obtain ⟨n, hn, rfl⟩ := List.mem_map.1 hh
    exact ⟨n, (List.mem_filter.1 hn).1, rfl⟩
  refine ⟨?_, ?_, ?_, by simp⟩
  · rw [Graph.hubs, List.flatMap_map]
    have hn : ((g.nodes.filter fun n => n.kind ≠ .other).map Node.id).Nodup :=
      ok.nodes.sublist (List.Sublist.map _ List.filter_sublist)
    revert hn
    generalize (g.nodes.filter fun n => n.kind ≠ .other) = l
    intro hn
    induction l with
    | nil => simp
    | cons x xs ih =>
      simp only [List.map_cons, List.nodup_cons, List.mem_map, not_exists, not_and] at hn
      have : ∀ y ∈ xs, y.id ≠ x.id := hn.1
      simp only [List.flatMap_cons, List.cons_append, List.nil_append, List.nodup_cons, List.mem_cons, List.mem_flatMap, not_or, not_exists,
        not_and, List.not_mem_nil, not_false_eq_true, and_true]
      refine ⟨⟨by unfold Graph.entP Graph.exiP; omega, fun y hy => ?_⟩, fun y hy => ?_, ih hn.2⟩ <;>
      · have := this y hy
        unfold Graph.entP Graph.exiP; omega
  · intro h hh h' hh' I hI
    obtain ⟨n, hn, rfl⟩ := key h hh
    obtain ⟨n', hn', rfl⟩ := key h' hh'
    constructor <;> intro hm <;> have := takes_lt ok hn' hI _ hm <;> simp only [Graph.entP, Graph.exiP] at this <;> omega
  · intro h hh h' hh' I hI
    obtain ⟨n, hn, rfl⟩ := key h hh
    obtain ⟨n', hn', rfl⟩ := key h' hh'
    constructor <;> intro hm <;> have := gives_lt ok hn' hI _ hm <;> simp only [Graph.entP, Graph.exiP] at this <;> omega

theorem hub_far {g : Graph} {h : Hub String} (hh : h ∈ g.hubs) : 2 ≤ h.ent ∧ 2 ≤ h.exi := by
  obtain ⟨n, hn, rfl⟩ := List.mem_map.1 hh
  have := two_le g
  simp only [Graph.entP, Graph.exiP]; omega

theorem run_congr {T T' : List (Tr String)} (h : ∀ t, t ∈ T ↔ t ∈ T') {M N : Mk} {w : List String} : Run T M w N ↔ Run T' M w N :=
  ⟨fun r => r.mono fun t ht => (h t).1 ht, fun r => r.mono fun t ht => (h t).2 ht⟩

/-- the net before the reduction has the traces of the graph -/
theorem build_lang {g : Graph} (ok : g.OK) (w : List String) : Run g.build.trs (toks [0]) w (toks [1]) ↔ g.Trace w := by
  rw [run_congr (mem_build ok), Graph.Trace, ← hubs_coarse]
  have := hubs_lang g.hubs [] (hubs_ok ok) (M := toks [0]) (N := toks [1]) (w := w) (by
    intro h hh
    have := hub_far hh
    refine ⟨?_, ?_, ?_, ?_⟩ <;> rw [toks_single, if_neg (by omega)])
  simpa using this

/-- every node can be entered and left -/
structure Graph.Connected (g : Graph) : Prop where
  into : ∀ n ∈ g.nodes, n.kind ≠ .other → n.kind = .start ∨ ∃ f ∈ g.flows, f.tgt = n.id
  out : ∀ n ∈ g.nodes, n.kind ≠ .other → n.kind = .fin ∨ ∃ f ∈ g.flows, f.src = n.id

theorem gives_ne {g : Graph} (ok : g.OK) {n : Node} (hn : n ∈ g.nodes) {I : List Nat} (hI : I ∈ g.gives n) : I ≠ [] := by
  rcases (mem_gives ok hn).1 hI with ⟨_, rfl⟩ | ⟨hs, rfl⟩ | ⟨_, f, hf, _, rfl⟩
  · simp
  · intro e
    have := hs.2
    rw [List.map_eq_nil_iff] at e
    rw [e] at this; simp at this
  · simp

theorem takes_nonempty {g : Graph} (ok : g.OK) (hc : g.Connected) {n : Node} (hn : n ∈ g.nodes) (hk : n.kind ≠ .other) : g.takes n ≠ [] := by
  have : ∃ I, I ∈ g.takes n := by
    rcases hc.into n hn hk with h | ⟨f, hf, e⟩
    · exact ⟨_, (mem_takes ok hn).2 (.inl ⟨h, rfl⟩)⟩
    · by_cases hs : g.joins n.id
      · exact ⟨_, (mem_takes ok hn).2 (.inr (.inl ⟨hs, rfl⟩))⟩
      · exact ⟨_, (mem_takes ok hn).2 (.inr (.inr ⟨hs, f, hf, e, rfl⟩))⟩
  obtain ⟨I, hI⟩ := this
  exact List.ne_nil_of_mem hI

theorem gives_nonempty {g : Graph} (ok : g.OK) (hc : g.Connected) {n : Node} (hn : n ∈ g.nodes) (hk : n.kind ≠ .other) : g.gives n ≠ [] := by
  have : ∃ I, I ∈ g.gives n := by
    rcases hc.out n hn hk with h | ⟨f, hf, e⟩
    · exact ⟨_, (mem_gives ok hn).2 (.inl ⟨h, rfl⟩)⟩
    · by_cases hs : g.splits n.id
      · exact ⟨_, (mem_gives ok hn).2 (.inr (.inl ⟨hs, rfl⟩))⟩
      · exact ⟨_, (mem_gives ok hn).2 (.inr (.inr ⟨hs, f, hf, e, rfl⟩))⟩
  obtain ⟨I, hI⟩ := this
  exact List.ne_nil_of_mem hI

theorem sound_congr {T T' : List (Tr String)} (h : ∀ t, t ∈ T ↔ t ∈ T') {i o : Nat} (hS : Sound T i o) : Sound T' i o := by
  refine ⟨fun w M r => hS.proper w M ((run_congr h).2 r), fun w M r => hS.safe w M ((run_congr h).2 r), fun w M r => ?_, fun t ht => ?_⟩
  · obtain ⟨v, hv⟩ := hS.complete w M ((run_congr h).2 r)
    exact ⟨v, (run_congr h).1 hv⟩
  · obtain ⟨w, M, M', r, hf⟩ := hS.live t ((h t).2 ht)
    exact ⟨w, M, M', (run_congr h).1 r, hf⟩

/-- if the token game is sound, the net is -/
theorem build_sound {g : Graph} (ok : g.OK) (hc : g.Connected) (hS : Sound g.moves 0 1) : Sound g.build.trs 0 1 := by
  rw [← hubs_coarse] at hS
  have := hubs_sound g.hubs [] (hubs_ok ok) (i := 0) (o := 1) (by
    intro h hh
    have := hub_far hh
    obtain ⟨n, hn, rfl⟩ := List.mem_map.1 hh
    obtain ⟨hn, hk⟩ := List.mem_filter.1 hn
    have hk : n.kind ≠ .other := by simpa using hk
    exact ⟨by omega, by omega, by omega, by omega, takes_nonempty ok hc hn hk, gives_nonempty ok hc hn hk, fun O hO => gives_ne ok hn hO⟩)
    (by simpa using hS)
  exact sound_congr (fun t => (mem_build ok t).symm) (by simpa using this)

/-! ### the net is a net -/

theorem nodup_flatMap_key {β : Type} {key : β → Nat} {l : List β} (hn : (l.map key).Nodup) {F : β → List Nat}
    (h1 : ∀ x ∈ l, (F x).Nodup) (h2 : ∀ x ∈ l, ∀ y ∈ l, key x ≠ key y → ∀ t ∈ F x, t ∉ F y) : (l.flatMap F).Nodup := by
  induction l with
  | nil => simp
  | cons x xs ih =>
    simp only [List.map_cons, List.nodup_cons, List.mem_map, not_exists, not_and] at hn
    rw [List.flatMap_cons, List.nodup_append]
    refine ⟨h1 x (by simp), ih hn.2 (fun y hy => h1 y (by simp [hy])) (fun y hy z hz => h2 y (by simp [hy]) z (by simp [hz])), ?_⟩
    intro t ht u hu e
    subst e
    obtain ⟨y, hy, hu⟩ := List.mem_flatMap.1 hu
    exact h2 x (by simp) y (by simp [hy]) (fun e => hn.1 y hy e.symm) t ht hu

theorem nodeNet_trans_nodup (g : Graph) (n : Node) : ((g.nodeNet n).trans.map Prod.fst).Nodup := by
  unfold Graph.nodeNet
  by_cases ho : (g.outFlows n.id).length > 1 <;> by_cases hi : (g.inFlows n.id).length > 1 <;>
    cases hm : n.kind <;> simp [ho, hi, hm, Kind.sync]

theorem mem_nodeNet_id {g : Graph} {n : Node} {t : Nat} (h : t ∈ (g.nodeNet n).trans.map Prod.fst) : t / 7 = n.id ∧ t % 7 < 5 := by
  obtain ⟨a, ha, rfl⟩ := List.mem_map.1 h
  obtain ⟨_, ha⟩ := mem_nodeNet.1 ha
  rcases ha with rfl | ⟨_, _, rfl⟩ | ⟨_, _, rfl⟩ | ⟨_, rfl⟩ | ⟨_, rfl⟩ <;> simp only [nodeT, exitT, enterT, startT, endT] <;> omega

theorem mem_flowNet_id {g : Graph} (ok : g.OK) {f : Flow} (hf : f ∈ g.flows) {t : Nat} (h : t ∈ (g.flowNet f).trans.map Prod.fst) :
    t / 7 = f.id ∧ 5 ≤ t % 7 := by
  rw [flowNet_trans g f (ok.ksrc hf) (ok.ktgt hf)] at h
  obtain ⟨a, ha, rfl⟩ := List.mem_map.1 h
  rcases List.mem_append.1 ha with ha | ha <;> split at ha <;> simp at ha <;> subst ha <;> simp only [sflT, tflT] <;> omega

theorem build_trans_nodup {g : Graph} (ok : g.OK) : (g.build.trans.map Prod.fst).Nodup := by
  rw [build_trans, List.map_append, List.map_flatMap, List.map_flatMap, List.nodup_append]
  refine ⟨nodup_flatMap_key ok.nodes (fun n _ => nodeNet_trans_nodup g n) ?_, nodup_flatMap_key ok.flows (fun f hf => ?_) ?_, ?_⟩
  · intro x _ y _ hne t ht ht'
    exact hne ((mem_nodeNet_id ht).1.symm.trans (mem_nodeNet_id ht').1)
  · rw [flowNet_trans g f (ok.ksrc hf) (ok.ktgt hf)]
    by_cases h1 : g.splits f.src <;> by_cases h2 : g.joins f.tgt <;> simp [h1, h2]
  · intro x hx y hy hne t ht ht'
    exact hne ((mem_flowNet_id ok hx ht).1.symm.trans (mem_flowNet_id ok hy ht').1)
  · intro t ht u hu e
    subst e
    obtain ⟨n, hn, ht⟩ := List.mem_flatMap.1 ht
    obtain ⟨f, hf, hu⟩ := List.mem_flatMap.1 hu
    have := (mem_nodeNet_id ht).2; have := (mem_flowNet_id ok hf hu).2; omega

theorem build_places (g : Graph) : g.build.places = 0 :: 1 :: g.flows.map flowPlace ++ (g.nodes.flatMap fun n => (g.nodeNet n).places) ++
    g.flows.flatMap fun f => (g.flowNet f).places := by
  simp [Graph.build, flat_places]

theorem build_pt (g : Graph) : g.build.pt = (g.nodes.flatMap fun n => (g.nodeNet n).pt) ++ g.flows.flatMap fun f => (g.flowNet f).pt := by
  simp [Graph.build, flat_pt]

theorem build_tp (g : Graph) : g.build.tp = (g.nodes.flatMap fun n => (g.nodeNet n).tp) ++ g.flows.flatMap fun f => (g.flowNet f).tp := by
  simp [Graph.build, flat_tp]

theorem mem_nodeNet_pt {g : Graph} {n : Node} {a : Nat × Nat} (h : a ∈ (g.nodeNet n).pt) :
    a.2 ∈ (g.nodeNet n).trans.map Prod.fst ∧ (a.1 = 0 ∨ a.1 ∈ (g.nodeNet n).places) := by
  revert h
  unfold Graph.nodeNet
  by_cases ho : (g.outFlows n.id).length > 1 <;> by_cases hi : (g.inFlows n.id).length > 1 <;>
    cases hm : n.kind <;> simp [ho, hi, hm, Kind.sync] <;> intro h <;> (repeat' (rcases h with rfl | h)) <;> (first | (subst h; simp) | simp_all)

theorem mem_nodeNet_tp {g : Graph} {n : Node} {a : Nat × Nat} (h : a ∈ (g.nodeNet n).tp) :
    a.1 ∈ (g.nodeNet n).trans.map Prod.fst ∧ (a.2 = 1 ∨ a.2 ∈ (g.nodeNet n).places) := by
  revert h
  unfold Graph.nodeNet
  by_cases ho : (g.outFlows n.id).length > 1 <;> by_cases hi : (g.inFlows n.id).length > 1 <;>
    cases hm : n.kind <;> simp [ho, hi, hm, Kind.sync] <;> intro h <;> (repeat' (rcases h with rfl | h)) <;> (first | (subst h; simp) | simp_all)

theorem node_places {g : Graph} {n : Node} (hn : n ∈ g.nodes) (hk : n.kind ≠ .other) : g.entP n.id ∈ g.build.places ∧ g.exiP n.id ∈ g.build.places := by
  have : ∀ p ∈ (g.nodeNet n).places, p ∈ g.build.places := by
    intro p hp
    rw [build_places]
    exact List.mem_append.2 (.inl (List.mem_append.2 (.inr (List.mem_flatMap.2 ⟨n, hn, hp⟩))))
  constructor <;> apply this <;> unfold Graph.nodeNet <;> rw [if_neg hk] <;> simp

theorem node_trans {g : Graph} {n : Node} (hn : n ∈ g.nodes) {a : Nat × Option String} (ha : a ∈ (g.nodeNet n).trans) :
    a.1 ∈ g.build.trans.map Prod.fst := by
  refine List.mem_map.2 ⟨a, ?_, rfl⟩
  rw [build_trans]
  exact List.mem_append.2 (.inl (List.mem_flatMap.2 ⟨n, hn, ha⟩))

theorem build_isNet {g : Graph} (ok : g.OK) : IsNet g.build := by
  have zero : 0 ∈ g.build.places := by rw [build_places]; simp
  have one : 1 ∈ g.build.places := by rw [build_places]; simp
  have flow : ∀ f ∈ g.flows, flowPlace f ∈ g.build.places := by
    intro f hf; rw [build_places]
    refine List.mem_append.2 (.inl (List.mem_append.2 (.inl ?_)))
    simp only [List.mem_cons]
    exact .inr (.inr (List.mem_map.2 ⟨f, hf, rfl⟩))
  have nd : ∀ n ∈ g.nodes, ∀ p ∈ (g.nodeNet n).places, p ∈ g.build.places := by
    intro n hn p hp
    rw [build_places]
    exact List.mem_append.2 (.inl (List.mem_append.2 (.inr (List.mem_flatMap.2 ⟨n, hn, hp⟩))))
  have ntr : ∀ n ∈ g.nodes, ∀ t ∈ (g.nodeNet n).trans.map Prod.fst, t ∈ g.build.trans.map Prod.fst := by
    intro n hn t ht
    obtain ⟨a, ha, rfl⟩ := List.mem_map.1 ht
    exact node_trans hn ha
  have ftr : ∀ f ∈ g.flows, ∀ t ∈ (g.flowNet f).trans.map Prod.fst, t ∈ g.build.trans.map Prod.fst := by
    intro f hf t ht
    obtain ⟨a, ha, rfl⟩ := List.mem_map.1 ht
    refine List.mem_map.2 ⟨a, ?_, rfl⟩
    rw [build_trans]
    exact List.mem_append.2 (.inr (List.mem_flatMap.2 ⟨f, hf, ha⟩))
  refine ⟨build_trans_nodup ok, fun a ha => ?_, fun a ha => ?_⟩
  · rw [build_pt] at ha
    rcases List.mem_append.1 ha with ha | ha
    · obtain ⟨n, hn, ha⟩ := List.mem_flatMap.1 ha
      obtain ⟨h1, h2⟩ := mem_nodeNet_pt ha
      refine ⟨?_, ntr n hn _ h1⟩
      rcases h2 with h2 | h2
      · rw [h2]; exact zero
      · exact nd n hn _ h2
    · obtain ⟨f, hf, ha⟩ := List.mem_flatMap.1 ha
      have k1 := ok.ksrc hf
      have k2 := ok.ktgt hf
      have tr := flowNet_trans g f k1 k2
      obtain ⟨n, hn, e, hk⟩ := ok.src f hf
      obtain ⟨n', hn', e', hk'⟩ := ok.tgt f hf
      unfold Graph.flowNet at ha
      rw [if_pos ⟨k1, k2⟩, exiting_eq, entering_eq] at ha
      by_cases hs : g.splits f.src <;> by_cases hj : g.joins f.tgt <;> simp [hs, hj] at ha
      · subst ha
        refine ⟨flow f hf, ?_⟩
        rw [← e'] at hj ⊢
        have hj' := (ok.joins_iff hn').1 hj
        exact node_trans (a := (_, none)) hn' (mem_nodeNet.2 ⟨hk', .inr (.inr (.inl ⟨hj'.1, hj'.2, rfl⟩))⟩)
      · subst ha
        exact ⟨flow f hf, ftr f hf _ (by rw [tr]; simp [hj])⟩
      · rcases ha with rfl | rfl
        · exact ⟨e ▸ (node_places hn hk).2, ftr f hf _ (by rw [tr]; simp [hs])⟩
        · refine ⟨flow f hf, ?_⟩
          rw [← e'] at hj ⊢
          have hj' := (ok.joins_iff hn').1 hj
          exact node_trans (a := (_, none)) hn' (mem_nodeNet.2 ⟨hk', .inr (.inr (.inl ⟨hj'.1, hj'.2, rfl⟩))⟩)
      · rcases ha with rfl | rfl
        · exact ⟨e ▸ (node_places hn hk).2, ftr f hf _ (by rw [tr]; simp [hs])⟩
        · exact ⟨flow f hf, ftr f hf _ (by rw [tr]; simp [hj])⟩
  · rw [build_tp] at ha
    rcases List.mem_append.1 ha with ha | ha
    · obtain ⟨n, hn, ha⟩ := List.mem_flatMap.1 ha
      obtain ⟨h1, h2⟩ := mem_nodeNet_tp ha
      refine ⟨ntr n hn _ h1, ?_⟩
      rcases h2 with h2 | h2
      · rw [h2]; exact one
      · exact nd n hn _ h2
    · obtain ⟨f, hf, ha⟩ := List.mem_flatMap.1 ha
      have k1 := ok.ksrc hf
      have k2 := ok.ktgt hf
      have tr := flowNet_trans g f k1 k2
      obtain ⟨n, hn, e, hk⟩ := ok.src f hf
      obtain ⟨n', hn', e', hk'⟩ := ok.tgt f hf
      have sp : g.splits f.src → exitT f.src ∈ g.build.trans.map Prod.fst := by
        intro hs
        rw [← e] at hs ⊢
        have hs' := (ok.splits_iff hn).1 hs
        exact node_trans (a := (_, none)) hn (mem_nodeNet.2 ⟨hk, .inr (.inl ⟨hs'.1, hs'.2, rfl⟩)⟩)
      unfold Graph.flowNet at ha
      rw [if_pos ⟨k1, k2⟩, exiting_eq, entering_eq] at ha
      by_cases hs : g.splits f.src <;> by_cases hj : g.joins f.tgt <;> simp [hs, hj] at ha
      · subst ha
        exact ⟨sp hs, flow f hf⟩
      · rcases ha with rfl | rfl
        · exact ⟨sp hs, flow f hf⟩
        · exact ⟨ftr f hf _ (by rw [tr]; simp [hj]), e' ▸ (node_places hn' hk').1⟩
      · subst ha
        exact ⟨ftr f hf _ (by rw [tr]; simp [hs]), flow f hf⟩
      · rcases ha with rfl | rfl
        · exact ⟨ftr f hf _ (by rw [tr]; simp [hs]), flow f hf⟩
        · exact ⟨ftr f hf _ (by rw [tr]; simp [hj]), e' ▸ (node_places hn' hk').1⟩

end Bpmn
end Verif
