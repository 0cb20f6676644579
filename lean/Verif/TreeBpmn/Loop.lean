import Verif.TreeBpmn.Delete
import Verif.TreeBpmn.Rec
import Verif.Bpmn.Net
/-
`delete_tau_transitions` keeps the language and soundness (C72).
-/
set_option linter.unusedSectionVars false
namespace Verif
namespace TreeBpmn
open Bpmn Sys Lang

/-- the nodes and flows that take part in the token game -/
def gN (g : Graph) : List Node := (g.nodes.filter real).map sil
def gF (g : Graph) : List Flow := g.flows.filter liveF

/-- holds between two deletions; `R` are the tasks that still have to be deleted -/
structure DInv (g : Graph) (R : List Nat) (L : Lang String) : Prop where
  ids : (g.nodes.map Node.id).Nodup
  fids : ((gF g).map Flow.id).Nodup
  ends : ∀ f ∈ gF g, f.src ∈ g.nodes.map Node.id ∧ f.src % 3 ≠ 0 ∧ f.tgt ∈ g.nodes.map Node.id
  dead : ∀ f ∈ g.flows, f.tgt % 3 = 0 → f.src % 3 ≠ 0 ∧ f.tgt < f.src ∧ f.tgt ∈ R
  dnod : ((g.flows.filter deadF).map Flow.tgt).Nodup
  taus : R = (g.nodes.map Node.id).filter fun x => x % 3 != 2
  sorted : R.Pairwise (· < ·)
  kinds : ∀ n ∈ g.nodes, n.id % 3 ≠ 0 → n.kind ≠ .other ∧ n.kind ≠ .incl ∧ (n.id % 3 = 1 → n.kind = .task)
  one : ∀ n ∈ g.nodes, n.id % 3 = 1 → ((gF g).map Flow.tgt).count n.id = 1 ∧ ((gF g).map Flow.src).count n.id = 1
  conn : ∀ n ∈ g.nodes, n.id % 3 ≠ 0 → (n.kind = .start ∨ n.id ∈ (gF g).map Flow.tgt) ∧ (n.kind = .fin ∨ n.id ∈ (gF g).map Flow.src)
  sound : Sound (E (gN g) (gF g)) 0 1
  lang : ∀ w, L w ↔ Run (E (gN g) (gF g)) (toks [0]) w (toks [1])

theorem liveF_iff {f : Flow} : liveF f = true ↔ f.tgt % 3 ≠ 0 := by simp [liveF]
theorem liveF_neg {f : Flow} : ¬ (liveF f = true) ↔ f.tgt % 3 = 0 := by simp [liveF]

theorem filter_ne_node {l : List Node} {x : Nat} : (l.filter fun n => decide (n.id ≠ x)).map Node.id = (l.map Node.id).filter fun y => decide (y ≠ x) := by
  rw [List.filter_map]; rfl

/-- an auxiliary task -/
theorem step_help {g : Graph} {x : Nat} {R : List Nat} {L : Lang String} (h : DInv g (x :: R) L) (hx : x % 3 = 0) :
    ∃ g', delTau g x = some g' ∧ DInv g' R L ∧ g'.nodes = g.nodes.filter fun n => decide (n.id ≠ x) := by
  have houts : g.outFlows x = [] := by
    unfold Graph.outFlows
    rw [List.filter_eq_nil_iff]
    intro f hf he
    have he' : f.src = x := by simpa using he
    by_cases hl : f.tgt % 3 = 0
    · exact (h.dead f hf hl).1 (by rw [he']; exact hx)
    · exact (h.ends f (List.mem_filter.2 ⟨hf, liveF_iff.2 hl⟩)).2.1 (by rw [he']; exact hx)
  have hins : (g.inFlows x).length ≤ 1 := by
    have h1 : (g.inFlows x) = (g.flows.filter deadF).filter fun f => f.tgt == x := by
      unfold Graph.inFlows
      rw [List.filter_filter]
      apply List.filter_congr
      intro f _
      by_cases e : f.tgt = x <;> simp [deadF, e, hx]
    have h2 := List.nodup_iff_count.1 h.dnod x
    rw [List.count, List.countP_map, List.countP_eq_length_filter] at h2
    rw [h1]
    exact h2
  have hdel : delTau g x = some ⟨g.nodes.filter fun n => decide (n.id ≠ x), g.flows.filter fun y => decide (y ∉ g.inFlows x ∧ y ∉ g.outFlows x)⟩ := by
    unfold delTau
    simp only [houts]
    rw [if_neg (by simp; omega)]
    cases g.inFlows x <;> rfl
  have hin : ∀ f, f ∈ g.flows → (decide (f ∉ g.inFlows x ∧ f ∉ g.outFlows x) = true ↔ f.tgt ≠ x) := by
    intro f hf
    rw [houts]
    simp only [List.not_mem_nil, not_false_eq_true, and_true, decide_eq_true_eq]
    refine ⟨fun h e => h (List.mem_filter.2 ⟨hf, by simpa using e⟩), fun h h' => h ?_⟩
    simpa using (List.mem_filter.1 h').2
  refine ⟨_, hdel, ?_, rfl⟩
  have eF : gF ⟨g.nodes.filter fun n => decide (n.id ≠ x), g.flows.filter fun y => decide (y ∉ g.inFlows x ∧ y ∉ g.outFlows x)⟩ = gF g := by
    unfold gF
    simp only
    rw [List.filter_filter]
    apply List.filter_congr
    intro f hf
    by_cases hl : liveF f = true
    · rw [hl, (hin f hf).2 (fun e => liveF_iff.1 hl (by rw [e]; exact hx))]; rfl
    · rw [Bool.not_eq_true] at hl
      rw [hl]; rfl
  have eN : gN ⟨g.nodes.filter fun n => decide (n.id ≠ x), g.flows.filter fun y => decide (y ∉ g.inFlows x ∧ y ∉ g.outFlows x)⟩ = gN g := by
    unfold gN
    simp only
    rw [List.filter_filter]
    congr 1
    apply List.filter_congr
    intro n hn
    by_cases hl : n.id % 3 = 0
    · simp [real, hl]
    · have : n.id ≠ x := fun e => hl (by rw [e]; exact hx)
      simp [this]
  have hR : R = ((g.nodes.map Node.id).filter fun x => x % 3 != 2).filter fun y => decide (y ≠ x) := by
    rw [← h.taus, List.filter_cons_of_neg (by simp)]
    refine (List.filter_eq_self.2 fun y hy => ?_).symm
    have := (List.pairwise_cons.1 h.sorted).1 y hy
    simp; omega
  have hsub : ∀ n ∈ g.nodes.filter (fun n => decide (n.id ≠ x)), n ∈ g.nodes := fun n hn => (List.mem_filter.1 hn).1
  refine ⟨?_, by rw [eF]; exact h.fids, ?_, ?_, ?_, ?_, (List.pairwise_cons.1 h.sorted).2, fun n hn => h.kinds n (hsub n hn), ?_, ?_, ?_, ?_⟩
  · simp only [filter_ne_node]
    exact h.ids.filter _
  · intro f hf
    rw [eF] at hf
    have h1 := h.ends f hf
    have h2 := liveF_iff.1 (List.mem_filter.1 hf).2
    simp only [filter_ne_node, List.mem_filter, decide_eq_true_eq]
    exact ⟨⟨h1.1, fun e => h1.2.1 (by rw [e]; exact hx)⟩, h1.2.1, h1.2.2, fun e => h2 (by rw [e]; exact hx)⟩
  · intro f hf he
    obtain ⟨hf, h1⟩ := List.mem_filter.1 hf
    obtain ⟨a, b, c⟩ := h.dead f hf he
    refine ⟨a, b, ?_⟩
    rcases List.mem_cons.1 c with c | c
    · exact absurd c ((hin f hf).1 h1)
    · exact c
  · simp only [List.filter_filter]
    refine h.dnod.sublist (List.Sublist.map _ ?_)
    rw [← List.filter_filter]
    exact (List.filter_sublist).filter _
  · simp only [filter_ne_node]
    rw [hR, List.filter_filter, List.filter_filter]
    apply List.filter_congr
    intro y _
    exact Bool.and_comm _ _
  · intro n hn; rw [eF]; exact h.one n (hsub n hn)
  · intro n hn; rw [eF]; exact h.conn n (hsub n hn)
  · rw [eN, eF]; exact h.sound
  · rw [eN, eF]; exact h.lang

theorem one_of_count {F : List Flow} {k : Flow → Nat} {x : Nat} (h : (F.map k).count x = 1) : ∃ f, (F.filter fun f => k f == x) = [f] := by
  rw [List.count, List.countP_map, List.countP_eq_length_filter] at h
  obtain ⟨f, hf⟩ := List.length_eq_one_iff.1 h
  exact ⟨f, hf⟩

/-- the task of a silent leaf -/
theorem step_tau {g : Graph} {x : Nat} {R : List Nat} {L : Lang String} (h : DInv g (x :: R) L) (hx : x % 3 = 1) :
    ∃ g', delTau g x = some g' ∧ DInv g' R L ∧ g'.nodes = g.nodes.filter fun n => decide (n.id ≠ x) := by
  have hxm : x ∈ g.nodes.map Node.id := by
    have : x ∈ x :: R := by simp
    rw [h.taus] at this
    exact (List.mem_filter.1 this).1
  obtain ⟨xn, hxn, rfl⟩ := List.mem_map.1 hxm
  obtain ⟨c1, c2⟩ := h.one xn hxn hx
  obtain ⟨f, hf⟩ := one_of_count c1
  obtain ⟨e, he⟩ := one_of_count c2
  have hins : g.inFlows xn.id = [f] := by
    rw [← hf]
    unfold Graph.inFlows gF
    rw [List.filter_filter]
    apply List.filter_congr
    intro y _
    by_cases e : y.tgt = xn.id <;> simp [liveF, e, hx]
  have houts : g.outFlows xn.id = [e] := by
    rw [← he]
    unfold Graph.outFlows gF
    rw [List.filter_filter]
    apply List.filter_congr
    intro y hy
    by_cases e1 : y.src = xn.id
    · have : liveF y = true := by
        refine Classical.byContradiction fun hn => ?_
        obtain ⟨_, h2, h3⟩ := h.dead y hy (liveF_neg.1 hn)
        rcases List.mem_cons.1 h3 with h3 | h3
        · omega
        · have := (List.pairwise_cons.1 h.sorted).1 _ h3; omega
      simp [e1, this]
    · simp [e1]
  have hmemf : ∀ y, y ∈ gF g → (y.tgt = xn.id ↔ y = f) := by
    intro y hy
    have h1 : y ∈ (gF g).filter (fun f => f.tgt == xn.id) ↔ y = f := by rw [hf]; simp
    rw [← h1, List.mem_filter]
    simp [hy]
  have hmeme : ∀ y, y ∈ gF g → (y.src = xn.id ↔ y = e) := by
    intro y hy
    have h1 : y ∈ (gF g).filter (fun f => f.src == xn.id) ↔ y = e := by rw [he]; simp
    rw [← h1, List.mem_filter]
    simp [hy]
  have hfF : f ∈ gF g := by
    have : f ∈ (gF g).filter (fun f => f.tgt == xn.id) := by rw [hf]; simp
    exact (List.mem_filter.1 this).1
  have heF : e ∈ gF g := by
    have : e ∈ (gF g).filter (fun f => f.src == xn.id) := by rw [he]; simp
    exact (List.mem_filter.1 this).1
  have hft := (hmemf f hfF).2 rfl
  have hes := (hmeme e heF).2 rfl
  have hsilx : sil xn = { xn with name := "" } := by unfold sil; rw [if_pos hx]
  have hsid : ∀ n : Node, (sil n).id = n.id ∧ (sil n).kind = n.kind := by
    intro n; unfold sil; split <;> simp
  have hrx : real xn = true := by simp [real, hx]
  have hxN : sil xn ∈ gN g := List.mem_map.2 ⟨xn, List.mem_filter.2 ⟨hxn, hrx⟩, rfl⟩
  have hkx : (sil xn).kind = .task := by rw [(hsid xn).2]; exact (h.kinds xn hxn (by omega)).2.2 hx
  have hne : f ≠ e := by
    intro hfe
    subst hfe
    refine no_self (N := gN g) (x := sil xn) (f := f) (F := gF g) hxN hkx ?_ ?_ ?_ h.fids h.sound
    · intro n hn hid
      obtain ⟨m, hm, rfl⟩ := List.mem_map.1 hn
      rw [(hsid m).1, (hsid xn).1] at hid
      rw [inj_of_nodup h.ids (List.mem_filter.1 hm).1 hxn hid]
    · rw [(hsid xn).1]; exact hf
    · rw [(hsid xn).1]; exact he
  have hfs : f.src ≠ xn.id := fun h' => hne ((hmeme f hfF).1 h')
  have het : e.tgt ≠ xn.id := fun h' => hne ((hmemf e heF).1 h').symm
  have hdel : delTau g xn.id = some ⟨g.nodes.filter fun n => decide (n.id ≠ xn.id),
      (g.flows.filter fun y => decide (y ≠ e ∧ y ≠ f)) ++ [⟨f.id, f.src, e.tgt⟩]⟩ := by
    unfold delTau
    simp only [hins, houts]
    rw [if_neg (by simp), if_neg hne]
  refine ⟨_, hdel, ?_, rfl⟩
  -- the flows
  have hFnd : (gF g).Nodup := (List.pairwise_map.1 h.fids).imp fun h e => h (by rw [e])
  let G := (gF g).filter fun y => decide (y ≠ e ∧ y ≠ f)
  have hetl : e.tgt % 3 ≠ 0 := liveF_iff.1 (List.mem_filter.1 heF).2
  have eF : gF ⟨g.nodes.filter fun n => decide (n.id ≠ xn.id), (g.flows.filter fun y => decide (y ≠ e ∧ y ≠ f)) ++ [⟨f.id, f.src, e.tgt⟩]⟩ =
      G ++ [⟨f.id, f.src, e.tgt⟩] := by
    unfold G gF
    simp only [List.filter_append]
    rw [List.filter_filter, List.filter_filter]
    congr 1
    · apply List.filter_congr
      intro y _
      exact Bool.and_comm _ _
    · rw [List.filter_cons_of_pos (liveF_iff (f := ⟨f.id, f.src, e.tgt⟩).2 hetl)]; rfl
  have pF : (gF g).Perm (f :: e :: G) := by
    have h1 := List.perm_cons_erase hfF
    have he' : e ∈ (gF g).erase f := (List.mem_erase_of_ne fun h => hne h.symm).2 heF
    have h2 := List.perm_cons_erase he'
    have h3 : ((gF g).erase f).erase e = G := by
      rw [(hFnd.erase f).erase_eq_filter, hFnd.erase_eq_filter, List.filter_filter]
      apply List.filter_congr
      intro y _
      by_cases a : y = e <;> by_cases b : y = f <;> simp [a, b]
    rw [h3] at h2
    exact h1.trans (h2.cons f)
  have pF' : (G ++ [(⟨f.id, f.src, e.tgt⟩ : Flow)]).Perm (⟨f.id, f.src, e.tgt⟩ :: G) := List.perm_append_comm
  have hGm : ∀ y ∈ G, y ∈ gF g ∧ y.src ≠ xn.id ∧ y.tgt ≠ xn.id := by
    intro y hy
    obtain ⟨h1, h2⟩ := List.mem_filter.1 hy
    simp only [decide_eq_true_eq] at h2
    exact ⟨h1, fun h => h2.1 ((hmeme y h1).1 h), fun h => h2.2 ((hmemf y h1).1 h)⟩
  have hid : ((f :: e :: G).map Flow.id).Nodup := (pF.map Flow.id).nodup_iff.1 h.fids
  -- the nodes
  obtain ⟨P, Q, hPQ⟩ := List.append_of_mem hxn
  have hPQx : ∀ n ∈ P ++ Q, n.id ≠ xn.id := by
    intro n hn hid'
    have := h.ids
    rw [hPQ, List.map_append, List.map_cons, List.perm_middle.nodup_iff, List.nodup_cons] at this
    exact this.1 (by rw [← List.map_append]; exact List.mem_map.2 ⟨n, hn, hid'⟩)
  have hflt : (g.nodes.filter fun n => decide (n.id ≠ xn.id)) = P ++ Q := by
    rw [hPQ, List.filter_append, List.filter_cons_of_neg (by simp), ← List.filter_append]
    exact List.filter_eq_self.2 fun n hn => by simpa using hPQx n hn
  have eN : gN g = ((P.filter real).map sil) ++ sil xn :: (Q.filter real).map sil := by
    unfold gN
    rw [hPQ, List.filter_append, List.filter_cons_of_pos hrx, List.map_append, List.map_cons]
  have eN' : gN ⟨g.nodes.filter fun n => decide (n.id ≠ xn.id), (g.flows.filter fun y => decide (y ≠ e ∧ y ≠ f)) ++ [⟨f.id, f.src, e.tgt⟩]⟩ =
      ((P.filter real).map sil) ++ (Q.filter real).map sil := by
    unfold gN
    simp only [hflt, List.filter_append, List.map_append]
  have fus : ExitFusion (E (gN g) (f :: e :: G)) (E (((P.filter real).map sil) ++ (Q.filter real).map sil) (⟨f.id, f.src, e.tgt⟩ :: G)) (e.id + 2) [f.id + 2] := by
    refine fuse_task eN hkx (by rw [hsilx]) ?_ (by rw [(hsid xn).1]; exact hft) (by rw [(hsid xn).1]; exact hes) (by rw [(hsid xn).1]; exact hfs)
      (by rw [(hsid xn).1]; exact het) (fun y hy => by rw [(hsid xn).1]; exact (hGm y hy).2) hid
    intro n hn
    rw [← List.map_append, ← List.filter_append] at hn
    obtain ⟨m, hm, rfl⟩ := List.mem_map.1 hn
    rw [(hsid m).1, (hsid xn).1]
    exact hPQx m (List.mem_filter.1 hm).1
  have hsubn : ∀ n ∈ g.nodes.filter (fun n => decide (n.id ≠ xn.id)), n ∈ g.nodes ∧ n.id ≠ xn.id := fun n hn => by
    have := List.mem_filter.1 hn
    exact ⟨this.1, by simpa using this.2⟩
  have hR : R = ((g.nodes.map Node.id).filter fun x => x % 3 != 2).filter fun y => decide (y ≠ xn.id) := by
    rw [← h.taus, List.filter_cons_of_neg (by simp)]
    refine (List.filter_eq_self.2 fun y hy => ?_).symm
    have := (List.pairwise_cons.1 h.sorted).1 y hy
    simp; omega
  have cT : ∀ y, y ≠ xn.id → ((G ++ [(⟨f.id, f.src, e.tgt⟩ : Flow)]).map Flow.tgt).count y = ((gF g).map Flow.tgt).count y := by
    intro y hy
    rw [(pF.map Flow.tgt).count_eq, (pF'.map Flow.tgt).count_eq]
    simp only [List.map_cons, List.count_cons, hft]
    have : xn.id ≠ y := fun h => hy h.symm
    simp [this]
  have cS : ∀ y, y ≠ xn.id → ((G ++ [(⟨f.id, f.src, e.tgt⟩ : Flow)]).map Flow.src).count y = ((gF g).map Flow.src).count y := by
    intro y hy
    rw [(pF.map Flow.src).count_eq, (pF'.map Flow.src).count_eq]
    simp only [List.map_cons, List.count_cons, hes]
    have : xn.id ≠ y := fun h => hy h.symm
    simp [this]
  refine ⟨?_, ?_, ?_, ?_, ?_, ?_, (List.pairwise_cons.1 h.sorted).2, fun n hn => h.kinds n (hsubn n hn).1, ?_, ?_, ?_, ?_⟩
  · simp only [filter_ne_node]
    exact h.ids.filter _
  · rw [eF, (pF'.map Flow.id).nodup_iff]
    simp only [List.map_cons, List.nodup_cons, List.mem_cons, not_or] at hid ⊢
    exact ⟨hid.1.2, hid.2.2⟩
  · intro y hy
    rw [eF] at hy
    simp only [filter_ne_node, List.mem_filter, decide_eq_true_eq]
    rcases List.mem_append.1 hy with hy | hy
    · obtain ⟨h1, h2, h3⟩ := hGm y hy
      obtain ⟨h4, h5, h6⟩ := h.ends y h1
      exact ⟨⟨h4, h2⟩, h5, h6, h3⟩
    · rw [List.mem_singleton] at hy
      subst hy
      exact ⟨⟨(h.ends f hfF).1, hfs⟩, (h.ends f hfF).2.1, (h.ends e heF).2.2, het⟩
  · intro y hy hd
    rcases List.mem_append.1 hy with hy | hy
    · obtain ⟨a, b, c⟩ := h.dead y (List.mem_filter.1 hy).1 hd
      refine ⟨a, b, ?_⟩
      rcases List.mem_cons.1 c with c | c
      · rw [c] at hd; omega
      · exact c
    · rw [List.mem_singleton] at hy
      subst hy
      exact absurd hd hetl
  · have : deadF ⟨f.id, f.src, e.tgt⟩ = false := by simp [deadF, hetl]
    simp only [List.filter_append]
    rw [List.filter_cons_of_neg (by simp [this]), List.filter_nil, List.append_nil]
    exact h.dnod.sublist (List.Sublist.map _ ((List.filter_sublist).filter _))
  · simp only [filter_ne_node]
    rw [hR, List.filter_filter, List.filter_filter]
    apply List.filter_congr
    intro y _
    exact Bool.and_comm _ _
  · intro n hn hn3
    rw [eF, cT _ (hsubn n hn).2, cS _ (hsubn n hn).2]
    exact h.one n (hsubn n hn).1 hn3
  · intro n hn hn3
    rw [eF, ← List.count_pos_iff, ← List.count_pos_iff, cT _ (hsubn n hn).2, cS _ (hsubn n hn).2, List.count_pos_iff, List.count_pos_iff]
    exact h.conn n (hsubn n hn).1 hn3
  · rw [eN', eF]
    exact Sim.sound (E_perm pF'.symm) (E_perm pF') (fus.sound (Sim.sound (E_perm pF) (E_perm pF.symm) h.sound) (by omega) (by omega))
  · intro w
    rw [eN', eF, h.lang w, Sim.lang (E_perm pF) (E_perm pF.symm), fus.lang (toks_off (by omega)) (toks_off (by omega)),
      Sim.lang (E_perm pF'.symm) (E_perm pF')]

theorem delTaus_ok {L : Lang String} : ∀ {R : List Nat} {g : Graph}, DInv g R L → ∃ g', delTaus R g = some g' ∧ DInv g' [] L ∧
    g'.nodes = g.nodes.filter fun n => decide (n.id ∉ R) := by
  intro R
  induction R with
  | nil => intro g h; exact ⟨g, rfl, h, (List.filter_eq_self.2 fun n _ => by simp).symm⟩
  | cons x R ih =>
    intro g h
    have hx : x % 3 ≠ 2 := by
      have : x ∈ x :: R := by simp
      rw [h.taus] at this
      simpa using (List.mem_filter.1 this).2
    have key : ∃ g', delTau g x = some g' ∧ DInv g' R L ∧ g'.nodes = g.nodes.filter fun n => decide (n.id ≠ x) := by
      rcases (by omega : x % 3 = 0 ∨ x % 3 = 1) with h0 | h0
      · exact step_help h h0
      · exact step_tau h h0
    obtain ⟨g1, h1, h2, h3⟩ := key
    obtain ⟨g2, h4, h5, h6⟩ := ih h2
    refine ⟨g2, by unfold delTaus; rw [h1]; exact h4, h5, ?_⟩
    rw [h6, h3, List.filter_filter]
    apply List.filter_congr
    intro n _
    by_cases a : n.id = x <;> by_cases b : n.id ∈ R <;> simp [a, b]

end TreeBpmn
end Verif
