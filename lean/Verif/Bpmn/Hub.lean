import Verif.Bpmn.Elim
/-
Nodes with an entry and an exit place against atomic nodes (C65).
-/
set_option linter.unusedSectionVars false
namespace Verif.Sys
open Verif Lang
variable {α : Type}

/-- a node: entry and exit place, sets of tokens that can enter, sets of tokens that can leave, label -/
structure Hub (α : Type) where
  ent : Nat
  exi : Nat
  ins : List (List Nat)
  outs : List (List Nat)
  lab : Option α

/-- the node in one step -/
def Hub.coarse (h : Hub α) : List (Tr α) := h.ins.flatMap fun I => h.outs.map fun O => ⟨I, O, h.lab⟩
/-- the node in three steps -/
def Hub.fine (h : Hub α) : List (Tr α) :=
  h.ins.map (fun I => ⟨I, [h.ent], none⟩) ++ ⟨[h.ent], [h.exi], h.lab⟩ :: h.outs.map fun O => ⟨[h.exi], O, none⟩

/-- the entry and exit places are private -/
structure HubsOK (R : List (Tr α)) (H : List (Hub α)) : Prop where
  nodup : (H.flatMap fun h => [h.ent, h.exi]).Nodup
  ins : ∀ h ∈ H, ∀ h' ∈ H, ∀ I ∈ h'.ins, h.ent ∉ I ∧ h.exi ∉ I
  outs : ∀ h ∈ H, ∀ h' ∈ H, ∀ I ∈ h'.outs, h.ent ∉ I ∧ h.exi ∉ I
  rest : ∀ t ∈ R, ∀ h ∈ H, h.ent ∉ t.pre ∧ h.exi ∉ t.pre ∧ h.ent ∉ t.post ∧ h.exi ∉ t.post

theorem mem_coarse {h : Hub α} {t : Tr α} : t ∈ h.coarse ↔ ∃ I ∈ h.ins, ∃ O ∈ h.outs, t = ⟨I, O, h.lab⟩ := by
  simp only [Hub.coarse, List.mem_flatMap, List.mem_map]
  exact ⟨fun ⟨I, hI, O, hO, e⟩ => ⟨I, hI, O, hO, e.symm⟩, fun ⟨I, hI, O, hO, e⟩ => ⟨I, hI, O, hO, e.symm⟩⟩

theorem mem_fine {h : Hub α} {t : Tr α} : t ∈ h.fine ↔ (∃ I ∈ h.ins, t = ⟨I, [h.ent], none⟩) ∨ t = ⟨[h.ent], [h.exi], h.lab⟩ ∨
    ∃ O ∈ h.outs, t = ⟨[h.exi], O, none⟩ := by
  simp only [Hub.fine, List.mem_append, List.mem_map, List.mem_cons]
  constructor
  · rintro (⟨I, hI, e⟩ | e | ⟨O, hO, e⟩)
    · exact .inl ⟨I, hI, e.symm⟩
    · exact .inr (.inl e)
    · exact .inr (.inr ⟨O, hO, e.symm⟩)
  · rintro (⟨I, hI, e⟩ | e | ⟨O, hO, e⟩)
    · exact .inl ⟨I, hI, e.symm⟩
    · exact .inr (.inl e)
    · exact .inr (.inr ⟨O, hO, e.symm⟩)

/-- the node with the exit place only -/
def Hub.mid (h : Hub α) : List (Tr α) := h.ins.map (fun I => ⟨I, [h.exi], h.lab⟩) ++ h.outs.map fun O => ⟨[h.exi], O, none⟩

theorem HubsOK.one {R : List (Tr α)} {h : Hub α} {H : List (Hub α)} (ok : HubsOK R (h :: H)) :
    ∀ t ∈ R ++ H.flatMap Hub.fine, (h.ent ∉ t.pre ∧ h.ent ∉ t.post) ∧ (h.exi ∉ t.pre ∧ h.exi ∉ t.post) := by
  intro t ht
  have nd := ok.nodup
  simp only [List.flatMap_cons, List.cons_append, List.nil_append, List.nodup_cons, List.mem_cons, List.mem_flatMap, not_or, not_exists,
    not_and] at nd
  obtain ⟨⟨n0, n1⟩, n2, _⟩ := nd
  rcases List.mem_append.1 ht with ht | ht
  · have := ok.rest t ht h (by simp)
    exact ⟨⟨this.1, this.2.2.1⟩, this.2.1, this.2.2.2⟩
  · obtain ⟨h', hh', ht⟩ := List.mem_flatMap.1 ht
    have d1 := n1 h' hh'
    have d2 := n2 h' hh'
    simp only [List.not_mem_nil, not_false_eq_true, and_true] at d1 d2
    rcases mem_fine.1 ht with ⟨I, hI, rfl⟩ | rfl | ⟨O, hO, rfl⟩
    · have := ok.ins h (by simp) h' (by simp [hh']) I hI
      simp [this.1, this.2, d1.1, d2.1]
    · simp [d1.1, d2.1, d1.2, d2.2]
    · have := ok.outs h (by simp) h' (by simp [hh']) O hO
      simp [this.1, this.2, d1.2, d2.2]

theorem HubsOK.elimEnt {R : List (Tr α)} {h : Hub α} {H : List (Hub α)} (ok : HubsOK R (h :: H)) :
    Elim (R ++ (h.fine ++ H.flatMap Hub.fine)) (R ++ (h.mid ++ H.flatMap Hub.fine))
      (h.outs.map (fun O => (⟨[h.exi], O, none⟩ : Tr α)) ++ (R ++ H.flatMap Hub.fine)) h.ent (h.ins.map fun I => (I, none)) [([h.exi], h.lab)] := by
  have nd := ok.nodup
  simp only [List.flatMap_cons, List.cons_append, List.nil_append, List.nodup_cons, List.mem_cons, not_or] at nd
  have hne : h.ent ≠ h.exi := nd.1.1
  refine ⟨fun t => ?_, fun t => ?_, fun t ht => ?_, fun a ha => ?_, fun b hb => ?_, .inl fun a ha => ?_⟩
  · simp only [List.mem_append, mem_fine, List.mem_map, List.mem_singleton]
    constructor
    · rintro (h1 | (⟨I, hI, rfl⟩ | rfl | ⟨O, hO, rfl⟩) | h1)
      · exact .inl (.inr (.inl h1))
      · exact .inr (.inl ⟨_, ⟨I, hI, rfl⟩, rfl⟩)
      · exact .inr (.inr ⟨_, rfl, rfl⟩)
      · exact .inl (.inl ⟨O, hO, rfl⟩)
      · exact .inl (.inr (.inr h1))
    · rintro ((⟨O, hO, rfl⟩ | h1 | h1) | ⟨_, ⟨I, hI, rfl⟩, rfl⟩ | ⟨_, rfl, rfl⟩)
      · exact .inr (.inl (.inr (.inr ⟨O, hO, rfl⟩)))
      · exact .inl h1
      · exact .inr (.inr h1)
      · exact .inr (.inl (.inl ⟨I, hI, rfl⟩))
      · exact .inr (.inl (.inr (.inl rfl)))
  · simp only [List.mem_append, Hub.mid, List.mem_map, List.mem_singleton]
    constructor
    · rintro (h1 | (⟨I, hI, rfl⟩ | ⟨O, hO, rfl⟩) | h1)
      · exact .inl (.inr (.inl h1))
      · exact .inr ⟨_, ⟨I, hI, rfl⟩, _, rfl, by simp⟩
      · exact .inl (.inl ⟨O, hO, rfl⟩)
      · exact .inl (.inr (.inr h1))
    · rintro ((⟨O, hO, rfl⟩ | h1 | h1) | ⟨_, ⟨I, hI, rfl⟩, _, rfl, rfl⟩)
      · exact .inr (.inl (.inr ⟨O, hO, rfl⟩))
      · exact .inl h1
      · exact .inr (.inr h1)
      · exact .inr (.inl (.inl ⟨I, hI, by simp⟩))
  · rcases List.mem_append.1 ht with ht | ht
    · obtain ⟨O, hO, rfl⟩ := List.mem_map.1 ht
      exact ⟨by simpa using hne, (ok.outs h (by simp) h (by simp) O hO).1⟩
    · exact (ok.one t ht).1
  · obtain ⟨I, hI, rfl⟩ := List.mem_map.1 ha
    exact (ok.ins h (by simp) h (by simp) I hI).1
  · rw [List.mem_singleton] at hb
    subst hb; simpa using hne
  · obtain ⟨I, hI, rfl⟩ := List.mem_map.1 ha
    rfl

theorem HubsOK.elimExi {R : List (Tr α)} {h : Hub α} {H : List (Hub α)} (ok : HubsOK R (h :: H)) :
    Elim (R ++ (h.mid ++ H.flatMap Hub.fine)) (R ++ (h.coarse ++ H.flatMap Hub.fine))
      (R ++ H.flatMap Hub.fine) h.exi (h.ins.map fun I => (I, h.lab)) (h.outs.map fun O => (O, none)) := by
  refine ⟨fun t => ?_, fun t => ?_, fun t ht => (ok.one t ht).2, fun a ha => ?_, fun b hb => ?_, .inr fun b hb => ?_⟩
  · simp only [List.mem_append, Hub.mid, List.mem_map]
    constructor
    · rintro (h1 | (⟨I, hI, rfl⟩ | ⟨O, hO, rfl⟩) | h1)
      · exact .inl (.inl h1)
      · exact .inr (.inl ⟨_, ⟨I, hI, rfl⟩, rfl⟩)
      · exact .inr (.inr ⟨_, ⟨O, hO, rfl⟩, rfl⟩)
      · exact .inl (.inr h1)
    · rintro ((h1 | h1) | ⟨_, ⟨I, hI, rfl⟩, rfl⟩ | ⟨_, ⟨O, hO, rfl⟩, rfl⟩)
      · exact .inl h1
      · exact .inr (.inr h1)
      · exact .inr (.inl (.inl ⟨I, hI, rfl⟩))
      · exact .inr (.inl (.inr ⟨O, hO, rfl⟩))
  · simp only [List.mem_append, mem_coarse, List.mem_map]
    constructor
    · rintro (h1 | ⟨I, hI, O, hO, rfl⟩ | h1)
      · exact .inl (.inl h1)
      · exact .inr ⟨_, ⟨I, hI, rfl⟩, _, ⟨O, hO, rfl⟩, by simp⟩
      · exact .inl (.inr h1)
    · rintro ((h1 | h1) | ⟨_, ⟨I, hI, rfl⟩, _, ⟨O, hO, rfl⟩, rfl⟩)
      · exact .inl h1
      · exact .inr (.inr h1)
      · exact .inr (.inl ⟨I, hI, O, hO, by simp⟩)
  · obtain ⟨I, hI, rfl⟩ := List.mem_map.1 ha
    exact (ok.ins h (by simp) h (by simp) I hI).2
  · obtain ⟨O, hO, rfl⟩ := List.mem_map.1 hb
    exact (ok.outs h (by simp) h (by simp) O hO).2
  · obtain ⟨O, hO, rfl⟩ := List.mem_map.1 hb
    rfl

theorem HubsOK.next {R : List (Tr α)} {h : Hub α} {H : List (Hub α)} (ok : HubsOK R (h :: H)) : HubsOK (R ++ h.coarse) H := by
  have nd := ok.nodup
  simp only [List.flatMap_cons, List.cons_append, List.nil_append, List.nodup_cons] at nd
  refine ⟨nd.2.2, fun a ha b hb => ok.ins a (by simp [ha]) b (by simp [hb]), fun a ha b hb => ok.outs a (by simp [ha]) b (by simp [hb]), ?_⟩
  intro t ht a ha
  rcases List.mem_append.1 ht with ht | ht
  · exact ok.rest t ht a (by simp [ha])
  · obtain ⟨I, hI, O, hO, rfl⟩ := mem_coarse.1 ht
    have h1 := ok.ins a (by simp [ha]) h (by simp) I hI
    have h2 := ok.outs a (by simp [ha]) h (by simp) O hO
    exact ⟨h1.1, h1.2, h2.1, h2.2⟩

/-- three steps per node or one: the same traces -/
theorem hubs_lang (H : List (Hub α)) : ∀ (R : List (Tr α)), HubsOK R H → ∀ {M N : Mk} {w : List α},
    (∀ h ∈ H, M h.ent = 0 ∧ M h.exi = 0 ∧ N h.ent = 0 ∧ N h.exi = 0) →
    (Run (R ++ H.flatMap Hub.fine) M w N ↔ Run (R ++ H.flatMap Hub.coarse) M w N) := by
  induction H with
  | nil => intro R _ M N w _; simp
  | cons h H ih =>
    intro R ok M N w h0
    obtain ⟨z1, z2, z3, z4⟩ := h0 h (by simp)
    have := ih (R ++ h.coarse) ok.next (M := M) (N := N) (w := w) fun a ha => h0 a (by simp [ha])
    rw [List.flatMap_cons, ok.elimEnt.lang z1 z3, ok.elimExi.lang z2 z4, List.flatMap_cons, ← List.append_assoc, this, List.append_assoc]

/-- three steps per node or one: soundness -/
theorem hubs_sound (H : List (Hub α)) : ∀ (R : List (Tr α)), HubsOK R H → ∀ {i o : Nat},
    (∀ h ∈ H, h.ent ≠ i ∧ h.exi ≠ i ∧ h.ent ≠ o ∧ h.exi ≠ o ∧ h.ins ≠ [] ∧ h.outs ≠ [] ∧ ∀ O ∈ h.outs, O ≠ []) →
    Sound (R ++ H.flatMap Hub.coarse) i o → Sound (R ++ H.flatMap Hub.fine) i o := by
  induction H with
  | nil => intro R _ i o _ hS; simpa using hS
  | cons h H ih =>
    intro R ok i o h0 hS
    obtain ⟨z1, z2, z3, z4, z5, z6, z7⟩ := h0 h (by simp)
    rw [List.flatMap_cons, ← List.append_assoc] at hS
    have h1 := ih (R ++ h.coarse) ok.next (fun a ha => h0 a (by simp [ha])) hS
    rw [List.append_assoc] at h1
    have h2 := ok.elimExi.sound h1 z2 z4 (by simpa using z5) (by simpa using z6) (by
      intro b hb
      obtain ⟨O, hO, rfl⟩ := List.mem_map.1 hb
      exact z7 O hO)
    rw [List.flatMap_cons]
    exact ok.elimEnt.sound h2 z1 z3 (by simpa using z5) (by simp) (by simp)

end Verif.Sys
