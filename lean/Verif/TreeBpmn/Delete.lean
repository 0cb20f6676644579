import Verif.TreeBpmn.BodyBlock
import Verif.Convert.ReduceSteps
/-
Deleting the silent tasks keeps the token game (C72).
-/
set_option linter.unusedSectionVars false
namespace Verif
namespace Sys
variable {α : Type}

/-- the same moves up to the order of the places -/
def Sim (T T' : List (Tr α)) : Prop := ∀ t ∈ T, ∃ t' ∈ T', (∀ x, t'.pre.count x = t.pre.count x) ∧ (∀ x, t'.post.count x = t.post.count x) ∧ t'.lab = t.lab

theorem Sim.run {T T' : List (Tr α)} (h : Sim T T') {M M' : Mk} {w : List α} (hr : Run T M w M') : Run T' M w M' := by
  induction hr with
  | nil => exact .nil
  | snoc _ ht hf ih =>
    obtain ⟨t', ht', h1, h2, h3⟩ := h _ ht
    rw [← h3]
    exact .snoc ih ht' ⟨fun p => by rw [h1]; exact hf.1 p, fun p => by rw [h1, h2]; exact hf.2 p⟩

theorem Sim.lang {T T' : List (Tr α)} (h : Sim T T') (h' : Sim T' T) {M M' : Mk} {w : List α} : Run T M w M' ↔ Run T' M w M' := ⟨h.run, h'.run⟩

theorem Sim.sound {T T' : List (Tr α)} (h : Sim T T') (h' : Sim T' T) {i o : Nat} (hs : Sound T i o) : Sound T' i o := by
  refine ⟨fun w M hr => hs.proper w M (h'.run hr), fun w M hr => hs.safe w M (h'.run hr), fun w M hr => ?_, fun t' ht' => ?_⟩
  · obtain ⟨v, hv⟩ := hs.complete w M (h'.run hr)
    exact ⟨v, h.run hv⟩
  · obtain ⟨t, ht, h1, h2, _⟩ := h' t' ht'
    obtain ⟨w, M, M', hr, hf⟩ := hs.live t ht
    exact ⟨w, M, M', h.run hr, fun p => by rw [← h1]; exact hf.1 p, fun p => by rw [← h1, ← h2]; exact hf.2 p⟩

end Sys

namespace TreeBpmn
open Bpmn Sys Lang

/-- alternatives of a node that can take from the places `l` (or give to them) -/
def alts (s : Bool) (z : Nat) (sync : Bool) (l : List Nat) : List (List Nat) :=
  (if s then [[z]] else []) ++ if sync = true ∧ l.length > 1 then [l] else l.map fun p => [p]

/-- the moves of a node with the given places before and after it -/
def nmL (n : Node) (I O : List Nat) : List (Tr String) :=
  (alts (n.kind == .start) 0 n.kind.sync I).flatMap fun i => (alts (n.kind == .fin) 1 n.kind.sync O).map fun o =>
    ⟨i, o, if n.kind = .task ∧ n.name ≠ "" then some n.name else none⟩

theorem nm_eq (F : List Flow) (n : Node) : nm F n = nmL n ((inF F n.id).map flowPlace) ((outF F n.id).map flowPlace) := by
  unfold nm nmL
  have e1 : Graph.takes ⟨[], F⟩ n = alts (n.kind == .start) 0 n.kind.sync ((inF F n.id).map flowPlace) := by
    unfold Graph.takes alts
    have : (⟨[], F⟩ : Graph).inFlows n.id = inF F n.id := rfl
    rw [this]
    simp [List.map_map, Function.comp_def]
  have e2 : Graph.gives ⟨[], F⟩ n = alts (n.kind == .fin) 1 n.kind.sync ((outF F n.id).map flowPlace) := by
    unfold Graph.gives alts
    have : (⟨[], F⟩ : Graph).outFlows n.id = outF F n.id := rfl
    rw [this]
    simp [List.map_map, Function.comp_def]
  rw [e1, e2]

theorem alts_perm {s sync : Bool} {z : Nat} {l l' : List Nat} (h : l.Perm l') {i : List Nat} (hi : i ∈ alts s z sync l) : ∃ i' ∈ alts s z sync l', i'.Perm i := by
  unfold alts at hi ⊢
  rcases List.mem_append.1 hi with hi | hi
  · exact ⟨i, List.mem_append.2 (.inl hi), .refl _⟩
  · rw [h.length_eq] at hi
    split at hi
    · next hc =>
      rw [if_pos hc]
      rw [List.mem_singleton] at hi
      subst hi
      exact ⟨l', List.mem_append.2 (.inr (by simp)), h.symm⟩
    · next hc =>
      rw [if_neg hc]
      obtain ⟨p, hp, rfl⟩ := List.mem_map.1 hi
      exact ⟨[p], List.mem_append.2 (.inr (List.mem_map.2 ⟨p, h.mem_iff.1 hp, rfl⟩)), .refl _⟩

theorem nmL_perm {n : Node} {I I' O O' : List Nat} (h1 : I.Perm I') (h2 : O.Perm O') : Sim (nmL n I O) (nmL n I' O') := by
  intro t ht
  obtain ⟨i, hi, ht⟩ := List.mem_flatMap.1 ht
  obtain ⟨o, ho, rfl⟩ := List.mem_map.1 ht
  obtain ⟨i', hi', p1⟩ := alts_perm h1 hi
  obtain ⟨o', ho', p2⟩ := alts_perm h2 ho
  exact ⟨_, List.mem_flatMap.2 ⟨i', hi', List.mem_map.2 ⟨o', ho', rfl⟩⟩, fun x => p1.count_eq x, fun x => p2.count_eq x, rfl⟩

/-- the token game of the nodes `N` with the flows `F` -/
def E (N : List Node) (F : List Flow) : List (Tr String) := N.flatMap (nm F)

theorem E_perm {N : List Node} {F F' : List Flow} (h : F.Perm F') : Sim (E N F) (E N F') := by
  intro t ht
  obtain ⟨n, hn, ht⟩ := List.mem_flatMap.1 ht
  rw [nm_eq] at ht
  obtain ⟨t', ht', h1⟩ := nmL_perm (n := n) (((h.filter _).map flowPlace : ((inF F n.id).map flowPlace).Perm ((inF F' n.id).map flowPlace)))
    ((h.filter _).map flowPlace : ((outF F n.id).map flowPlace).Perm ((outF F' n.id).map flowPlace)) t ht
  exact ⟨t', List.mem_flatMap.2 ⟨n, hn, by rw [nm_eq]; exact ht'⟩, h1⟩

/-- replace the place `p` by `q` -/
def sub (p q x : Nat) : Nat := if x = p then q else x

theorem alts_sub {s sync : Bool} {z p q : Nat} (hz : z ≠ p) (l : List Nat) : alts s z sync (l.map (sub p q)) = (alts s z sync l).map fun i => i.map (sub p q) := by
  unfold alts
  rw [List.map_append, List.length_map]
  congr 1
  · cases s <;> simp [sub, hz]
  · split <;> simp [List.map_map, Function.comp_def]

theorem mem_nmL_sub {n : Node} {I O : List Nat} {p q : Nat} (h0 : 0 ≠ p) {t' : Tr String} :
    t' ∈ nmL n (I.map (sub p q)) O ↔ ∃ t ∈ nmL n I O, t' = ⟨t.pre.map (sub p q), t.post, t.lab⟩ := by
  simp only [nmL, alts_sub h0, List.mem_flatMap, List.mem_map]
  constructor
  · rintro ⟨i, ⟨i', hi', rfl⟩, o, ho, rfl⟩
    exact ⟨_, ⟨i', hi', o, ho, rfl⟩, rfl⟩
  · rintro ⟨t, ⟨i, hi, o, ho, rfl⟩, rfl⟩
    exact ⟨_, ⟨i, hi, rfl⟩, o, ho, rfl⟩

theorem count_sub {p q : Nat} (h : p ≠ q) (l : List Nat) (x : Nat) :
    (l.map (sub p q)).count x = if x = p then 0 else l.count x + l.count p * [q].count x := by
  induction l with
  | nil => simp
  | cons y l ih =>
    simp only [List.map_cons, List.count_cons, ih, sub, beq_iff_eq, List.count_nil, Nat.zero_add]
    by_cases hy : y = p
    · subst hy
      by_cases hx : x = y
      · subst hx; simp [h.symm]
      · have : y ≠ x := fun e => hx e.symm
        by_cases hq : q = x <;> simp [hx, hq, this] <;> omega
    · by_cases hx : x = p
      · subst hx; simp [hy]
      · simp [hy, hx]; omega

theorem mem_alts {s sync : Bool} {z p : Nat} {l i : List Nat} (hi : i ∈ alts s z sync l) (hp : p ∈ i) : p = z ∨ p ∈ l := by
  unfold alts at hi
  rcases List.mem_append.1 hi with hi | hi
  · cases s
    · simp at hi
    · simp only [if_true, List.mem_singleton] at hi; subst hi; exact .inl (by simpa using hp)
  · split at hi
    · rw [List.mem_singleton] at hi; subst hi; exact .inr hp
    · obtain ⟨q, hq, rfl⟩ := List.mem_map.1 hi
      rw [List.mem_singleton] at hp; subst hp; exact .inr hq

/-- taking the silent task `x` with one flow to it and one from it out of the graph -/
theorem fuse_task {N A C : List Node} {x : Node} {f e : Flow} {G : List Flow} (hN : N = A ++ x :: C) (hx : x.kind = .task) (hxn : x.name = "")
    (hA : ∀ n ∈ A ++ C, n.id ≠ x.id) (hf : f.tgt = x.id) (he : e.src = x.id) (hft : f.src ≠ x.id) (het : e.tgt ≠ x.id)
    (hG : ∀ y ∈ G, y.src ≠ x.id ∧ y.tgt ≠ x.id) (hid : ((f :: e :: G).map Flow.id).Nodup) :
    ExitFusion (E N (f :: e :: G)) (E (A ++ C) (⟨f.id, f.src, e.tgt⟩ :: G)) (e.id + 2) [f.id + 2] := by
  have hfe : f.id ≠ e.id ∧ e.id ∉ G.map Flow.id := by
    simp only [List.map_cons, List.nodup_cons, List.mem_cons, not_or] at hid
    exact ⟨hid.1.1, hid.2.1⟩
  have hxm : nm (f :: e :: G) x = [⟨[f.id + 2], [e.id + 2], none⟩] := by
    rw [nm_task hx (f := f) (e := e)]
    · simp [hxn]
    · unfold inF
      rw [List.filter_cons_of_pos (by simp [hf]), List.filter_cons_of_neg (by simpa using het), List.filter_eq_nil_iff.2]
      intro y hy; simpa using (hG y hy).2
    · unfold outF
      rw [List.filter_cons_of_neg (by simpa using hft), List.filter_cons_of_pos (by simp [he]), List.filter_eq_nil_iff.2]
      intro y hy; simpa using (hG y hy).1
  have hother : ∀ n ∈ A ++ C, ∃ I O, nm (f :: e :: G) n = nmL n I O ∧ nm (⟨f.id, f.src, e.tgt⟩ :: G) n = nmL n (I.map (sub (e.id + 2) (f.id + 2))) O ∧
      e.id + 2 ∉ O := by
    intro n hn
    have hne := hA n hn
    refine ⟨(inF (f :: e :: G) n.id).map flowPlace, (outF (f :: e :: G) n.id).map flowPlace, nm_eq _ _, ?_, ?_⟩
    · rw [nm_eq]
      have hsub : (inF G n.id).map (sub (e.id + 2) (f.id + 2) ∘ flowPlace) = (inF G n.id).map flowPlace := by
        apply List.map_congr_left
        intro y hy
        have : y.id ≠ e.id := fun h => hfe.2 (List.mem_map.2 ⟨y, (List.mem_filter.1 hy).1, h⟩)
        show sub _ _ (flowPlace y) = _
        exact if_neg (by unfold flowPlace; omega)
      congr 1
      · unfold inF at hsub ⊢
        rw [List.filter_cons_of_neg (a := f) (by simpa [hf] using fun h => hne h.symm)]
        by_cases h : e.tgt = n.id
        · rw [List.filter_cons_of_pos (by simpa using h), List.filter_cons_of_pos (by simpa using h)]
          simp only [List.map_cons, List.map_map, hsub]
          simp [sub, flowPlace]
        · rw [List.filter_cons_of_neg (by simpa using h), List.filter_cons_of_neg (by simpa using h)]
          simp only [List.map_map, hsub]
      · unfold outF
        by_cases h : f.src = n.id
        · rw [List.filter_cons_of_pos (by simpa using h), List.filter_cons_of_pos (by simpa using h),
            List.filter_cons_of_neg (a := e) (by simpa [he] using fun h => hne h.symm)]
          rfl
        · rw [List.filter_cons_of_neg (by simpa using h), List.filter_cons_of_neg (a := f) (by simpa using h),
            List.filter_cons_of_neg (a := e) (by simpa [he] using fun h => hne h.symm)]
    · intro hm
      obtain ⟨y, hy, e1⟩ := List.mem_map.1 hm
      obtain ⟨hy, hs⟩ := List.mem_filter.1 hy
      have hs' : y.src = n.id := by simpa using hs
      unfold flowPlace at e1
      rcases List.mem_cons.1 hy with rfl | hy
      · exact hfe.1 (by omega)
      · rcases List.mem_cons.1 hy with rfl | hy
        · exact hne (hs'.symm.trans he)
        · exact hfe.2 (List.mem_map.2 ⟨y, hy, by omega⟩)
  have hpost : ∀ n ∈ A ++ C, ∀ t ∈ nm (f :: e :: G) n, e.id + 2 ∉ t.post := by
    intro n hn t ht hp
    obtain ⟨I, O, h1, _, h3⟩ := hother n hn
    rw [h1] at ht
    obtain ⟨i, hi, ht⟩ := List.mem_flatMap.1 ht
    obtain ⟨o, ho, rfl⟩ := List.mem_map.1 ht
    rcases mem_alts ho hp with h | h
    · omega
    · exact h3 h
  have hsubm : ∀ n ∈ A ++ C, ∀ t', t' ∈ nm (⟨f.id, f.src, e.tgt⟩ :: G) n ↔
      ∃ t ∈ nm (f :: e :: G) n, t' = ⟨t.pre.map (sub (e.id + 2) (f.id + 2)), t.post, t.lab⟩ := by
    intro n hn t'
    obtain ⟨I, O, h1, h2, _⟩ := hother n hn
    rw [h1, h2]
    exact mem_nmL_sub (by omega)
  have hmem : ∀ n, n ∈ N ↔ n = x ∨ n ∈ A ++ C := by
    intro n; rw [hN]; simp only [List.mem_append, List.mem_cons]; tauto
  have hfuse : ∀ n ∈ A ++ C, ∀ t ∈ nm (f :: e :: G) n, FusePre (e.id + 2) [f.id + 2] t ⟨t.pre.map (sub (e.id + 2) (f.id + 2)), t.post, t.lab⟩ :=
    fun n hn t ht => ⟨hpost n hn t ht, rfl, rfl, count_sub (by have := hfe.1; omega) _⟩
  refine ⟨List.mem_flatMap.2 ⟨x, (hmem x).2 (.inl rfl), by rw [hxm]; simp⟩, by have := hfe.1; simp; omega, ?_, ?_⟩
  · intro t ht
    obtain ⟨n, hn, ht⟩ := List.mem_flatMap.1 ht
    rcases (hmem n).1 hn with rfl | hn
    · rw [hxm] at ht; exact .inl (by simpa using ht)
    · exact .inr ⟨_, List.mem_flatMap.2 ⟨n, hn, (hsubm n hn _).2 ⟨t, ht, rfl⟩⟩, hfuse n hn t ht⟩
  · intro t' ht'
    obtain ⟨n, hn, ht'⟩ := List.mem_flatMap.1 ht'
    obtain ⟨t, ht, rfl⟩ := (hsubm n hn _).1 ht'
    exact ⟨t, List.mem_flatMap.2 ⟨n, (hmem n).2 (.inr hn), ht⟩, hfuse n hn t ht⟩

theorem inj_of_nodup {β γ : Type} {k : β → γ} {l : List β} (h : (l.map k).Nodup) {a b : β} (ha : a ∈ l) (hb : b ∈ l) (e : k a = k b) : a = b := by
  induction l with
  | nil => simp at ha
  | cons x l ih =>
    simp only [List.map_cons, List.nodup_cons] at h
    rcases List.mem_cons.1 ha with rfl | ha1 <;> rcases List.mem_cons.1 hb with rfl | hb1
    · rfl
    · exact absurd (List.mem_map.2 ⟨b, hb1, e.symm⟩) h.1
    · exact absurd (List.mem_map.2 ⟨a, ha1, e⟩) h.1
    · exact ih h.2 ha1 hb1

/-- in a sound graph a silent task is not its own successor -/
theorem no_self {N : List Node} {x : Node} {f : Flow} {F : List Flow} (hx : x ∈ N) (hk : x.kind = .task) (hu : ∀ n ∈ N, n.id = x.id → n = x)
    (h1 : inF F x.id = [f]) (h2 : outF F x.id = [f]) (hid : (F.map Flow.id).Nodup) {o : Nat} (hS : Sound (E N F) 0 o) : False := by
  have hm : f ∈ F ∧ f.src = x.id := by
    have : f ∈ outF F x.id := by rw [h2]; simp
    obtain ⟨a, b⟩ := List.mem_filter.1 this
    exact ⟨a, by simpa using b⟩
  refine hS.no_dead_entry (p := f.id + 2) (T' := E N F) (s := ⟨[f.id + 2], [f.id + 2], if x.name ≠ "" then some x.name else none⟩) (by omega)
    (List.mem_flatMap.2 ⟨x, hx, by rw [nm_task hk h1 h2]; simp⟩) (by simp) ?_
  intro t ht
  have ht0 := ht
  obtain ⟨n, hn, ht⟩ := List.mem_flatMap.1 ht
  by_cases hn' : n.id = x.id
  · rw [hu n hn hn', nm_task hk h1 h2] at ht
    exact .inl (by simpa using ht)
  · right
    refine ⟨ht0, fun hp => ?_⟩
    rw [nm_eq] at ht
    obtain ⟨i, hi, ht⟩ := List.mem_flatMap.1 ht
    obtain ⟨o, ho, rfl⟩ := List.mem_map.1 ht
    rcases mem_alts ho hp with h | h
    · omega
    · obtain ⟨y, hy, e1⟩ := List.mem_map.1 h
      obtain ⟨hy, hs⟩ := List.mem_filter.1 hy
      unfold flowPlace at e1
      have : y = f := by
        have e2 : y.id = f.id := by omega
        exact inj_of_nodup hid hy hm.1 e2
      subst this
      exact hn' (by rw [← hm.2]; simpa using Eq.symm (by simpa using hs : y.src = n.id))

end TreeBpmn
end Verif
