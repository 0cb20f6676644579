import Verif.TreeBpmn.Loop
import Verif.Bpmn.Theorems
/-
The whole graph (C72).
-/
set_option linter.unusedSectionVars false
namespace Verif
namespace TreeBpmn
open Bpmn Sys Lang

/-! ### every node can be entered and left -/

def Con (b : Bd) : Prop := ∀ n ∈ b.nodes, n.id ∈ b.flows.map Flow.tgt ++ [b.first] ∧ n.id ∈ b.flows.map Flow.src ++ [b.last]

theorem con_kids {cs : List (PT String)} (h : ∀ c ∈ cs, ∀ k j, Con (body c k j)) {s e : Nat} : ∀ k j,
    (∀ n ∈ (bodyKids cs s e k j).nodes, n.id ∈ (bodyKids cs s e k j).flows.map Flow.tgt ∧ n.id ∈ (bodyKids cs s e k j).flows.map Flow.src) ∧
    (cs ≠ [] → s ∈ (bodyKids cs s e k j).flows.map Flow.src ∧ e ∈ (bodyKids cs s e k j).flows.map Flow.tgt) := by
  induction cs with
  | nil => intro k j; exact ⟨by simp [bodyKids], fun h => absurd rfl h⟩
  | cons t ts ih =>
    intro k j
    rw [bodyKids.eq_2]
    have hb := h t (by simp) k (j + 2)
    obtain ⟨h1, _⟩ := ih (fun c hc => h c (by simp [hc])) (body t k (j + 2)).k (body t k (j + 2)).j
    refine ⟨fun n hn => ?_, fun _ => by simp⟩
    simp only [List.map_append, List.mem_append, List.map_cons, List.map_nil, List.mem_cons, List.not_mem_nil, or_false]
    rcases List.mem_append.1 hn with hn | hn
    · have := hb n hn
      simp only [List.mem_append, List.mem_singleton] at this
      exact ⟨.inl (this.1.imp id .inl), .inl (this.2.imp id .inr)⟩
    · exact ⟨.inr (h1 n hn).1, .inr (h1 n hn).2⟩

theorem con_seq {cs : List (PT String)} (h : ∀ c ∈ cs, ∀ k j, Con (body c k j)) : ∀ k j, Con (bodySeq cs k j) := by
  induction cs with
  | nil => intro k j n hn; simp [bodySeq] at hn
  | cons t ts ih =>
    intro k j
    rw [bodySeq.eq_2]
    split
    · exact h t (by simp) k _
    · intro n hn
      simp only [List.map_append, List.mem_append, List.map_cons, List.map_nil, List.mem_cons, List.not_mem_nil, or_false]
      rcases List.mem_append.1 hn with hn | hn
      · have := h t (by simp) k _ n hn
        simp only [List.mem_append, List.mem_singleton] at this
        exact ⟨this.1.elim (fun h => .inl (.inl (.inl h))) .inr, this.2.elim (fun h => .inl (.inl (.inl h))) fun h => .inl (.inr h)⟩
      · have := ih (fun c hc => h c (by simp [hc])) _ _ n hn
        simp only [List.mem_append, List.mem_singleton] at this
        exact ⟨this.1.elim (fun h => .inl (.inl (.inr h))) fun h => .inl (.inr h), this.2.elim (fun h => .inl (.inl (.inr h))) .inr⟩

theorem con_gate {kd : Kind} {cs : List (PT String)} (hne : cs ≠ []) (h : ∀ c ∈ cs, ∀ k j, Con (body c k j)) (k j : Nat) :
    Con ⟨[⟨3 * k + 2, kd, ""⟩, ⟨3 * (k + 1) + 2, kd, ""⟩] ++ (bodyKids cs (3 * k + 2) (3 * (k + 1) + 2) (k + 2) j).nodes,
      (bodyKids cs (3 * k + 2) (3 * (k + 1) + 2) (k + 2) j).flows, 3 * k + 2, 3 * (k + 1) + 2, (bodyKids cs (3 * k + 2) (3 * (k + 1) + 2) (k + 2) j).k,
      (bodyKids cs (3 * k + 2) (3 * (k + 1) + 2) (k + 2) j).j⟩ := by
  obtain ⟨h1, h2⟩ := con_kids h (s := 3 * k + 2) (e := 3 * (k + 1) + 2) (k + 2) j
  obtain ⟨h3, h4⟩ := h2 hne
  intro n hn
  simp only [List.cons_append, List.nil_append, List.mem_cons] at hn
  simp only [List.mem_append, List.mem_singleton]
  rcases hn with rfl | rfl | hn
  · exact ⟨.inr rfl, .inl h3⟩
  · exact ⟨.inl h4, .inr rfl⟩
  · exact ⟨.inl (h1 n hn).1, .inl (h1 n hn).2⟩

theorem con_body {t : PT String} (h : Convertible t) : ∀ k j, Con (body t k j) := by
  induction h with
  | tau => intro k j n hn; simp only [body, List.mem_singleton] at hn; subst hn; simp [body]
  | act => intro k j n hn; simp only [body, List.mem_singleton] at hn; subst hn; simp [body]
  | xor hne _ ih => intro k j; simp only [body]; exact con_gate hne ih k j
  | par hne _ ih => intro k j; simp only [body]; exact con_gate hne ih k j
  | seq hl _ ih => intro k j; simp only [body]; exact con_seq ih _ _
  | loop _ _ ih1 ih2 =>
    intro k j n hn
    simp only [body, List.cons_append, List.nil_append, List.mem_cons, List.mem_append] at hn
    simp only [body, List.map_append, List.map_cons, List.map_nil, List.mem_append, List.mem_cons, List.not_mem_nil, or_false]
    rcases hn with rfl | rfl | hn | hn
    · simp
    · simp
    · have := ih1 _ _ n hn
      simp only [List.mem_append, List.mem_singleton] at this
      exact ⟨.inl (.inl (this.1.imp id .inl)), .inl (.inl (this.2.imp id .inr))⟩
    · have := (con_kids ih2 _ _).1 n hn
      exact ⟨.inl (.inr this.1), .inl (.inr this.2)⟩

/-! ### the token game of the whole graph -/

theorem whole_block {t : PT String} (h : Convertible t) : ∃ hi, Block (E ([⟨2, .start, "start"⟩, ⟨5, .fin, "end"⟩] ++ (body t 2 2).nodes)
    ((body t 2 2).flows ++ [⟨0, 2, (body t 2 2).first⟩, ⟨1, (body t 2 2).last, 5⟩])) 0 1 2 hi t.lang := by
  have hg := good_body h 2 2
  have hb := block_body h 2 2 2 5 0 1 (by omega) (by omega) (by omega) (by omega) (by omega)
  have hs : ∀ f ∈ (body t 2 2).flows, f.src ≥ 6 ∧ f.tgt ≥ 6 := fun f hf => ⟨(hg.rng (hg.fend f hf).1).1, (hg.rng (hg.fend f hf).2).1⟩
  have h1 := (hg.rng hg.first).1
  have h2 := (hg.rng hg.last).1
  have e1 : nm ((body t 2 2).flows ++ [⟨0, 2, (body t 2 2).first⟩, ⟨1, (body t 2 2).last, 5⟩]) ⟨2, .start, "start"⟩ = [⟨[0], [2], none⟩] := by
    have a1 : inF ((body t 2 2).flows ++ [⟨0, 2, (body t 2 2).first⟩, ⟨1, (body t 2 2).last, 5⟩]) 2 = [] := by
      rw [inF_append, inF_nil fun f hf => by have := hs f hf; omega, inF_two, if_neg (by omega), if_neg (by omega)]; rfl
    have a2 : outF ((body t 2 2).flows ++ [⟨0, 2, (body t 2 2).first⟩, ⟨1, (body t 2 2).last, 5⟩]) 2 = [⟨0, 2, (body t 2 2).first⟩] := by
      rw [outF_append, outF_nil fun f hf => by have := hs f hf; omega, outF_two, if_pos rfl, if_neg (by omega)]; rfl
    rw [nm_eq]
    simp only [a1, a2]
    simp [nmL, alts, Kind.sync, flowPlace]
  have e2 : nm ((body t 2 2).flows ++ [⟨0, 2, (body t 2 2).first⟩, ⟨1, (body t 2 2).last, 5⟩]) ⟨5, .fin, "end"⟩ = [⟨[3], [1], none⟩] := by
    have a1 : inF ((body t 2 2).flows ++ [⟨0, 2, (body t 2 2).first⟩, ⟨1, (body t 2 2).last, 5⟩]) 5 = [⟨1, (body t 2 2).last, 5⟩] := by
      rw [inF_append, inF_nil fun f hf => by have := hs f hf; omega, inF_two, if_neg (by omega), if_pos rfl]; rfl
    have a2 : outF ((body t 2 2).flows ++ [⟨0, 2, (body t 2 2).first⟩, ⟨1, (body t 2 2).last, 5⟩]) 5 = [] := by
      rw [outF_append, outF_nil fun f hf => by have := hs f hf; omega, outF_two, if_neg (by omega), if_neg (by omega)]; rfl
    rw [nm_eq]
    simp only [a1, a2]
    simp [nmL, alts, Kind.sync, flowPlace]
  have hj := hg.jle
  have hend := block_seq hb (block_leaf none 3 1 ((body t 2 2).j + 2) (by omega) (by omega) (by omega)) (by omega) (by omega) (by omega) (by omega) rfl
  have hall := block_seq (block_leaf (none : Option String) 0 2 3 (by omega) (by omega) (by omega)) hend (by omega) (by omega) (by omega) rfl rfl
  refine ⟨_, (hall.congr (L2 := t.lang) fun w => ?_).mono fun m => ?_⟩
  · simp only [Option.toList_none]
    constructor
    · rintro ⟨u, v, rfl, ⟨x, y, hx, rfl, rfl⟩, rfl⟩
      simpa using hx
    · intro hw
      exact ⟨[], w, rfl, ⟨w, [], hw, rfl, by simp⟩, by simp⟩
  · show _ ↔ m ∈ E _ _
    unfold E
    rw [List.flatMap_append]
    simp only [List.flatMap_cons, List.flatMap_nil, List.append_nil, e1, e2, List.mem_append]
    show _ ↔ _ ∨ m ∈ bdT (body t 2 2) 2 5 0 1
    tauto

theorem Block.toSound {T : List (Tr String)} {i o lo hi : Nat} {L : Lang String} (h : Block T i o lo hi L) : Sound T i o :=
  ⟨h.proper, h.safe, h.complete, h.live⟩

theorem sil_id (n : Node) : (sil n).id = n.id ∧ (sil n).kind = n.kind := by unfold sil; split <;> simp

/-- the graph before the deletion of the silent tasks -/
theorem dinv_build {t : PT String} (h : Convertible t) : DInv (build t).1 (build t).2 t.lang := by
  obtain ⟨h1, -, -, -⟩ := rec_ok (2 * size t + 2) h 2 5 0 1 ⟨2, 2, 0⟩ (by simp) (by simp)
  have hg := good_body h 2 2
  have hc := con_body h 2 2
  obtain ⟨hi, hblk⟩ := whole_block h
  unfold build
  simp only at h1 ⊢
  generalize rec (2 * size t + 2) t 2 5 0 1 ⟨2, 2, 0⟩ = r at *
  have e1 : exitF 1 (body t 2 2).last 5 = [⟨1, (body t 2 2).last, 5⟩] := by simp [exitF]
  have e2 : ext 5 = [] := by simp [ext]
  rw [e1, e2] at h1
  generalize body t 2 2 = b at *
  have hf1 := hg.rng hg.first
  have hf2 := hg.rng hg.last
  have hsort : (([(⟨2, .start, "start"⟩ : Node), ⟨5, .fin, "end"⟩] ++ r.nodes).map Node.id).Pairwise (· < ·) := by
    rw [List.map_append]
    exact sorted_append (x := 6) (by simp) h1.sorted (by simp) fun a ha => (h1.idr ha).1
  have hids : ∀ x, x ∈ b.nodes.map Node.id → x ∈ r.nodes.map Node.id := by
    intro x hx
    obtain ⟨n, hn, rfl⟩ := List.mem_map.1 hx
    rw [← h1.nodes] at hn
    obtain ⟨m, hm, rfl⟩ := List.mem_map.1 hn
    rw [(sil_id m).1]
    exact List.mem_map.2 ⟨m, (List.mem_filter.1 hm).1, rfl⟩
  have hreal : ∀ n ∈ r.nodes, n.id % 3 ≠ 0 → sil n ∈ b.nodes := by
    intro n hn h3
    rw [← h1.nodes]
    exact List.mem_map.2 ⟨n, List.mem_filter.2 ⟨hn, by simp [real, h3]⟩, rfl⟩
  have hfl : (r.flows.filter liveF).Perm (b.flows ++ [⟨0, 2, b.first⟩, ⟨1, b.last, 5⟩]) := by
    have := h1.live
    simpa using this
  have eN : gN ⟨[⟨2, .start, "start"⟩, ⟨5, .fin, "end"⟩] ++ r.nodes, r.flows⟩ = [⟨2, .start, "start"⟩, ⟨5, .fin, "end"⟩] ++ b.nodes := by
    unfold gN
    simp only [List.filter_append, List.map_append, h1.nodes]
    rfl
  have cT := fun x => (hfl.map Flow.tgt).count_eq x
  have cS := fun x => (hfl.map Flow.src).count_eq x
  refine ⟨hsort.imp Nat.ne_of_lt, ?_, ?_, ?_, h1.dnod, ?_, ?_, ?_, ?_, ?_, ?_, ?_⟩
  · show ((r.flows.filter liveF).map Flow.id).Nodup
    rw [(hfl.map Flow.id).nodup_iff, List.map_append]
    refine List.nodup_append.2 ⟨hg.nod, by simp, ?_⟩
    intro a ha c hc
    obtain ⟨f, hf, rfl⟩ := List.mem_map.1 ha
    have := (hg.fid f hf).1
    simp only [List.map_cons, List.map_nil, List.mem_cons, List.not_mem_nil, or_false] at hc
    omega
  · intro f hf
    have hf' := hfl.mem_iff.1 hf
    simp only [List.mem_append, List.mem_cons, List.not_mem_nil, or_false] at hf'
    simp only [List.map_append, List.mem_append]
    rcases hf' with hf' | rfl | rfl
    · have := hg.fend f hf'
      exact ⟨.inr (hids _ this.1), (hg.rng this.1).2.2, .inr (hids _ this.2)⟩
    · exact ⟨.inl (by simp), by simp, .inr (hids _ hg.first)⟩
    · exact ⟨.inr (hids _ hg.last), hf2.2.2, .inl (by simp)⟩
  · intro f hf hd
    have a := h1.dtgt f hf hd
    have c := h1.dsrc f hf hd
    refine ⟨c.1, a.1, ?_⟩
    simp only [h1.taus]
    rcases a.2 with a | a
    · simp at a
    · exact List.mem_filter.2 ⟨a, by simp [hd]⟩
  · simp only [h1.taus, List.map_append, List.filter_append]
    rfl
  · simp only [h1.taus]
    exact h1.sorted.sublist List.filter_sublist
  · intro n hn h3
    simp only [List.cons_append, List.nil_append, List.mem_cons] at hn
    rcases hn with rfl | rfl | hn
    · simp
    · simp
    · have := hg.ids _ (hreal n hn h3)
      unfold NodeOK at this
      rw [(sil_id n).1, (sil_id n).2] at this
      exact ⟨this.2.2.2.2.2.2.1, this.2.2.2.2.2.2.2, this.2.2.2.1⟩
  · intro n hn h3
    simp only [List.cons_append, List.nil_append, List.mem_cons] at hn
    rcases hn with rfl | rfl | hn
    · simp at h3
    · simp at h3
    · have h4 := hreal n hn (by omega)
      have h5 := hg.ids _ h4
      unfold NodeOK at h5
      rw [(sil_id n).1, (sil_id n).2] at h5
      have h6 := hg.one _ h4 (by rw [(sil_id n).2]; exact h5.2.2.2.1 h3)
      rw [(sil_id n).1] at h6
      show ((r.flows.filter liveF).map Flow.tgt).count n.id = 1 ∧ ((r.flows.filter liveF).map Flow.src).count n.id = 1
      rw [cT, cS]
      simp only [List.map_append, List.map_cons, List.map_nil, List.count_append, List.count_cons, List.count_nil, beq_iff_eq, count_one] at h6 ⊢
      have : (5 : Nat) ≠ n.id := by omega
      have : (2 : Nat) ≠ n.id := by omega
      simp_all
  · intro n hn h3
    show (n.kind = .start ∨ n.id ∈ (r.flows.filter liveF).map Flow.tgt) ∧ (n.kind = .fin ∨ n.id ∈ (r.flows.filter liveF).map Flow.src)
    rw [(hfl.map Flow.tgt).mem_iff, (hfl.map Flow.src).mem_iff]
    simp only [List.map_append, List.map_cons, List.map_nil, List.mem_append, List.mem_cons, List.not_mem_nil, or_false]
    simp only [List.cons_append, List.nil_append, List.mem_cons] at hn
    rcases hn with rfl | rfl | hn
    · simp
    · simp
    · have := hc _ (hreal n hn h3)
      rw [(sil_id n).1] at this
      simp only [List.mem_append, List.mem_singleton] at this
      exact ⟨.inr (this.1.imp id .inl), .inr (this.2.imp id .inr)⟩
  · rw [eN]
    exact Sim.sound (E_perm hfl.symm) (E_perm hfl) (Block.toSound hblk)
  · intro w
    rw [eN, hblk.lang]
    exact Sim.lang (E_perm hfl.symm) (E_perm hfl)

end TreeBpmn
end Verif
