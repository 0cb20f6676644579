import Verif.WfTree.Steps2
/-
C53: the loop of the conversion: what holds for the net after each iteration, and the number of iterations.
-/
set_option linter.unusedSectionVars false
namespace Verif.WfTree
open Classical
variable {α : Type} {N : WN α} {i o : Nat}

theorem mem_swap {p r q : Nat} {l : List Nat} : q ∈ swap p r l ↔ (q ∈ l ∧ q ≠ p) ∨ (q = r ∧ p ∈ l) := by
  simp only [swap, List.mem_map]
  constructor
  · rintro ⟨x, hx, rfl⟩
    by_cases e : x = p
    · rw [if_pos e]; exact .inr ⟨rfl, e ▸ hx⟩
    · rw [if_neg e]; exact .inl ⟨hx, e⟩
  · rintro (⟨h, e⟩ | ⟨rfl, h⟩)
    · exact ⟨q, h, by rw [if_neg e]⟩
    · exact ⟨p, h, by simp⟩

/-- a transition after the insertion -/
def dumT (N : WN α) (p : Nat) (t : WT α) : WT α := { t with pre := swap p (N.next + 1) t.pre, post := swap p N.next t.post }
/-- the silent transition that is inserted -/
def dumK (N : WN α) : WT α := ⟨N.next + 2, [N.next], [N.next + 1], .leaf none, false⟩

theorem dum_trs (N : WN α) (p : Nat) : (insertDummy N p).trs = N.trs.map (dumT N p) ++ [dumK N] := rfl

section
variable (I : Inv N i o) {p : Nat} (hp : p ∈ N.places) (hi : p ≠ i) (ho : p ≠ o)
include I hp hi ho

theorem dum_mem {x : WT α} : x ∈ (insertDummy N p).trs ↔ (∃ t ∈ N.trs, dumT N p t = x) ∨ x = dumK N := by
  rw [dum_trs]; simp

theorem dum_inv : Inv (insertDummy N p) i o := by
  have key : ∀ {P : WT α → Prop}, (∀ t ∈ N.trs, P (dumT N p t)) → P (dumK N) → ∀ x ∈ (insertDummy N p).trs, P x := by
    intro P ha hb x hx
    rcases (dum_mem I hp hi ho).1 hx with ⟨t, ht, rfl⟩ | rfl
    · exact ha t ht
    · exact hb
  have hpl : ∀ q ∈ N.places, q ≠ p → q ∈ (insertDummy N p).places := fun q hq e => by simp [insertDummy, hq, e]
  have ilt := I.plt i I.ip
  have olt := I.plt o I.op
  refine ⟨?_, ?_, ?_, ?_, ?_, ?_, ?_, ?_, hpl i I.ip hi.symm, hpl o I.op ho.symm, ?_, ?_, I.io, ?_, ?_⟩
  · rw [dum_trs, List.map_append, List.map_map]
    have : ((fun t : WT α => t.id) ∘ dumT N p) = fun t => t.id := rfl
    rw [this]
    refine List.nodup_append.2 ⟨I.nodup, by simp, ?_⟩
    intro x hx y hy
    obtain ⟨t, ht, rfl⟩ := List.mem_map.1 hx
    have := I.idlt t ht
    simp [dumK] at hy; omega
  · exact key (fun t ht => Nat.lt_of_lt_of_le (I.idlt t ht) (Nat.le_add_right _ _)) (by simp [dumK, insertDummy])
  · intro q hq
    simp only [insertDummy, List.mem_append, List.mem_filter, List.mem_cons, List.not_mem_nil, or_false] at hq ⊢
    rcases hq with ⟨h, _⟩ | rfl | rfl
    · have := I.plt q h; omega
    · omega
    · omega
  · refine List.nodup_append.2 ⟨I.pnd.filter _, by simp, ?_⟩
    intro x hx y hy
    have := I.plt x (List.mem_filter.1 hx).1
    simp at hy; omega
  · refine key ?_ ?_
    · intro t ht q hq
      rcases mem_swap.1 hq with ⟨h, e⟩ | ⟨rfl, _⟩
      · exact hpl q (I.subPre t ht q h) e
      · simp [insertDummy]
    · simp [dumK, insertDummy]
  · refine key ?_ ?_
    · intro t ht q hq
      rcases mem_swap.1 hq with ⟨h, e⟩ | ⟨rfl, _⟩
      · exact hpl q (I.subPost t ht q h) e
      · simp [insertDummy]
    · simp [dumK, insertDummy]
  · exact key (fun t ht => by simp [dumT, swap, I.nePre t ht]) (by simp [dumK])
  · exact key (fun t ht => by simp [dumT, swap, I.nePost t ht]) (by simp [dumK])
  · refine key ?_ (by simp [dumK]; omega)
    intro t ht e
    rcases mem_swap.1 e with ⟨h, _⟩ | ⟨h, _⟩
    · exact I.iprod t ht h
    · omega
  · refine key ?_ (by simp [dumK]; omega)
    intro t ht e
    rcases mem_swap.1 e with ⟨h, _⟩ | ⟨h, _⟩
    · exact I.ocons t ht h
    · omega
  · obtain ⟨t, ht, h⟩ := I.icons
    exact ⟨dumT N p t, (dum_mem I hp hi ho).2 (.inl ⟨t, ht, rfl⟩), mem_swap.2 (.inl ⟨h, hi.symm⟩)⟩
  · exact key (fun t ht => I.wf t ht) (.leaf _)

theorem dum_ok (G : Good N i) : Red (toA N) (toA (insertDummy N p)) i o ∧ Good (insertDummy N p) i := by
  have J := dum_inv I hp hi ho
  have plt := I.plt p hp
  have ilt := I.plt i I.ip
  have olt := I.plt o I.op
  have kmem : dumK N ∈ (insertDummy N p).trs := (dum_mem I hp hi ho).2 (.inr rfl)
  have tmem : ∀ t ∈ N.trs, dumT N p t ∈ (insertDummy N p).trs := fun t ht => (dum_mem I hp hi ho).2 (.inl ⟨t, ht, rfl⟩)
  refine ⟨dum_red (p := p) (sp := N.next) (tp := N.next + 1) (k := N.next + 2) ⟨hi, ho, by omega, by omega, by omega, ?_, ?_, by omega, by omega, by omega,
    by omega, ?_, ?_, ?_, ?_, ?_, ?_⟩ ?_ ?_, ?_⟩
  · rintro x ⟨t, ht, rfl⟩
    rw [toA_pre I.nodup ht, toA_post I.nodup ht]
    exact ⟨fun e => by have := I.plt _ (I.subPre t ht _ e); omega, fun e => by have := I.plt _ (I.subPost t ht _ e); omega⟩
  · rintro x ⟨t, ht, rfl⟩
    rw [toA_pre I.nodup ht, toA_post I.nodup ht]
    exact ⟨fun e => by have := I.plt _ (I.subPre t ht _ e); omega, fun e => by have := I.plt _ (I.subPost t ht _ e); omega⟩
  · rintro ⟨t, ht, e⟩
    have := I.idlt t ht; omega
  · intro x
    constructor
    · rintro ⟨t, ht, rfl⟩
      rcases (dum_mem I hp hi ho).1 ht with ⟨y, hy, rfl⟩ | rfl
      · exact .inl ⟨y, hy, rfl⟩
      · exact .inr rfl
    · rintro (⟨t, ht, rfl⟩ | rfl)
      · exact ⟨_, tmem t ht, rfl⟩
      · exact ⟨_, kmem, rfl⟩
  · intro q
    refine (toA_pre J.nodup kmem q).trans ?_
    simp [dumK]
  · intro q
    refine (toA_post J.nodup kmem q).trans ?_
    simp [dumK]
  · rintro x q ⟨t, ht, rfl⟩
    refine (toA_pre J.nodup (tmem t ht) q).trans ?_
    rw [toA_pre I.nodup ht, toA_pre I.nodup ht]
    refine mem_swap.trans ⟨?_, ?_⟩
    · rintro (⟨a, b⟩ | h)
      · exact .inl ⟨b, by have := I.plt q (I.subPre t ht q a); omega, a⟩
      · exact .inr h
    · rintro (⟨a, _, b⟩ | h)
      · exact .inl ⟨b, a⟩
      · exact .inr h
  · rintro x q ⟨t, ht, rfl⟩
    refine (toA_post J.nodup (tmem t ht) q).trans ?_
    rw [toA_post I.nodup ht, toA_post I.nodup ht]
    refine mem_swap.trans ⟨?_, ?_⟩
    · rintro (⟨a, b⟩ | h)
      · exact .inl ⟨b, by have := I.plt q (I.subPost t ht q a); omega, a⟩
      · exact .inr h
    · rintro (⟨a, _, b⟩ | h)
      · exact .inl ⟨b, a⟩
      · exact .inr h
  · rintro x ⟨t, ht, rfl⟩
    rw [toA_L I.nodup ht]
    exact (toA_L J.nodup (tmem t ht) : (toA (insertDummy N p)).L (dumT N p t).id = _)
  · refine (toA_L J.nodup kmem).trans ?_
    simp [dumK]
  · have key : ∀ q, RP N i q → (q ≠ p → RP (insertDummy N p) i q) ∧ (q = p → RP (insertDummy N p) i N.next ∧ RP (insertDummy N p) i (N.next + 1)) := by
      intro q hr
      induction hr with
      | base => exact ⟨fun _ => .base, fun e => absurd e.symm hi⟩
      | @step t a b ht hat hbt _ ih =>
        -- an input place of the new transition that is reachable
        have hx : ∃ a' ∈ (dumT N p t).pre, RP (insertDummy N p) i a' := by
          by_cases e : a = p
          · exact ⟨N.next + 1, mem_swap.2 (.inr ⟨rfl, e ▸ hat⟩), (ih.2 e).2⟩
          · exact ⟨a, mem_swap.2 (.inl ⟨hat, e⟩), ih.1 e⟩
        obtain ⟨a', ha', hr'⟩ := hx
        constructor
        · intro e
          exact .step (tmem t ht) ha' (mem_swap.2 (.inl ⟨hbt, e⟩)) hr'
        · rintro rfl
          have h1 : RP (insertDummy N b) i N.next := .step (tmem t ht) ha' (mem_swap.2 (.inr ⟨rfl, hbt⟩)) hr'
          exact ⟨h1, .step kmem (by simp [dumK]) (by simp [dumK]) h1⟩
    intro q hq
    simp only [insertDummy, List.mem_append, List.mem_filter, List.mem_cons, List.not_mem_nil, or_false, decide_eq_true_eq] at hq
    rcases hq with ⟨h, e⟩ | rfl | rfl
    · exact (key q (G q h)).1 e
    · exact ((key p (G p hp)).2 rfl).1
    · exact ((key p (G p hp)).2 rfl).2

theorem dum_bad {b : Nat} (B : Bad N i b) (hb : b ≠ p) : Bad (insertDummy N p) i b := by
  have blt := I.plt b B.pp
  have ilt := I.plt i I.ip
  have kmem : dumK N ∈ (insertDummy N p).trs := (dum_mem I hp hi ho).2 (.inr rfl)
  have tmem : ∀ t ∈ N.trs, dumT N p t ∈ (insertDummy N p).trs := fun t ht => (dum_mem I hp hi ho).2 (.inl ⟨t, ht, rfl⟩)
  obtain ⟨t, ht, htp, hu, hit, q, hqt, x, hx, hxq⟩ := B.ex
  refine ⟨by simp [insertDummy, B.pp, hb], ?_, dumT N p t, tmem t ht, mem_swap.2 (.inl ⟨htp, hb⟩), ?_, ?_, ?_⟩
  · intro y hy
    rcases (dum_mem I hp hi ho).1 hy with ⟨z, hz, rfl⟩ | rfl
    · intro e
      rcases mem_swap.1 e with ⟨h, _⟩ | ⟨h, _⟩
      · exact B.src z hz h
      · omega
    · simp [dumK]; omega
  · intro y hy hyb
    rcases (dum_mem I hp hi ho).1 hy with ⟨z, hz, rfl⟩ | rfl
    · rcases mem_swap.1 hyb with ⟨h, _⟩ | ⟨h, _⟩
      · rw [hu z hz h]
      · omega
    · simp [dumK] at hyb; omega
  · intro e
    rcases mem_swap.1 e with ⟨h, _⟩ | ⟨h, _⟩
    · exact hit h
    · omega
  · by_cases e : q = p
    · exact ⟨N.next + 1, mem_swap.2 (.inr ⟨rfl, e ▸ hqt⟩), dumK N, kmem, by simp [dumK]⟩
    · exact ⟨q, mem_swap.2 (.inl ⟨hqt, e⟩), dumT N p x, tmem x hx, mem_swap.2 (.inl ⟨hxq, e⟩)⟩
end

/-- what holds for the net during the conversion; `A`: the net at the beginning -/
structure St (A : ANet α) (N : WN α) (i o : Nat) : Prop where
  inv : Inv N i o
  comp : N.trs.length = 1 → ∀ t ∈ N.trs, t.comp = true
  st : (Good N i ∧ Red A (toA N) i o) ∨ ∃ p, Bad N i p

/-- the number of transitions and of initial places that are left -/
def phi (ini : List Nat) (N : WN α) : Nat := N.trs.length + (N.places.filter fun p => decide (p ∈ ini)).length

theorem mem_sources {p : Nat} : p ∈ N.sources ↔ p ∈ N.places ∧ ∀ t ∈ N.trs, p ∉ t.post := by
  simp [WN.sources, WN.prods, List.isEmpty_iff, List.filter_eq_nil_iff]
theorem mem_sinks {p : Nat} : p ∈ N.sinks ↔ p ∈ N.places ∧ ∀ t ∈ N.trs, p ∉ t.pre := by
  simp [WN.sinks, WN.conss, List.isEmpty_iff, List.filter_eq_nil_iff]

theorem phi_dummy (I : Inv N i o) {p : Nat} (hp : p ∈ N.places) {ini : List Nat} (hini : p ∈ ini) (hb : ∀ q ∈ ini, q < N.next) :
    phi ini (insertDummy N p) = phi ini N := by
  simp only [phi, List.length_append, List.length_map, List.length_cons, List.length_nil, insertDummy, List.filter_append, List.filter_filter]
  have h1 : List.filter (fun p => decide (p ∈ ini)) [N.next, N.next + 1] = [] := by
    rw [List.filter_eq_nil_iff]
    intro a ha
    simp at ha
    simp
    intro h
    have := hb a h
    omega
  rw [h1]
  have h2 := List.length_eq_countP_add_countP (fun q => decide (q ≠ p)) (l := N.places.filter fun p => decide (p ∈ ini))
  have h3 : List.countP (fun q => decide ¬ (decide (q ≠ p)) = true) (N.places.filter fun p => decide (p ∈ ini)) = 1 := by
    have : (N.places.filter fun p => decide (p ∈ ini)).count p = 1 := List.count_eq_one_of_mem (I.pnd.filter _) (List.mem_filter.2 ⟨hp, by simpa using hini⟩)
    rw [← this, List.count]
    congr 1
    funext q
    by_cases e : q = p <;> simp [e]
  rw [h3, List.countP_eq_length_filter, List.filter_filter] at h2
  have h4 : (fun a => decide (a ∈ ini) && decide (a ≠ p)) = (fun a => decide (a ≠ p) && decide (a ∈ ini)) := by funext a; rw [Bool.and_comm]
  rw [h4] at *
  simp only [List.length_nil, Nat.add_zero, Nat.zero_add]
  omega

/-- the insertion of silent transitions -/
theorem dummies_ok {A : ANet α} {ini im fm : List Nat} (himi : i ∈ im) (hfmo : o ∈ fm) (l : List Nat) : ∀ N : WN α, Inv N i o → l.Nodup → (∀ q ∈ l, q ∈ N.places) →
    (∀ q ∈ ini, q < N.next) →
    ((Good N i ∧ Red A (toA N) i o) ∨ ∃ p ∈ im, Bad N i p) →
    Inv (l.foldl (fun N' p => if p ∈ ini ∧ p ∉ im ∧ p ∉ fm then insertDummy N' p else N') N) i o ∧
    (∀ q ∈ ini, q < (l.foldl (fun N' p => if p ∈ ini ∧ p ∉ im ∧ p ∉ fm then insertDummy N' p else N') N).next) ∧
    ((Good (l.foldl (fun N' p => if p ∈ ini ∧ p ∉ im ∧ p ∉ fm then insertDummy N' p else N') N) i ∧
      Red A (toA (l.foldl (fun N' p => if p ∈ ini ∧ p ∉ im ∧ p ∉ fm then insertDummy N' p else N') N)) i o) ∨
      ∃ p, Bad (l.foldl (fun N' p => if p ∈ ini ∧ p ∉ im ∧ p ∉ fm then insertDummy N' p else N') N) i p) ∧
    phi ini (l.foldl (fun N' p => if p ∈ ini ∧ p ∉ im ∧ p ∉ fm then insertDummy N' p else N') N) = phi ini N ∧
    N.trs.length ≤ (l.foldl (fun N' p => if p ∈ ini ∧ p ∉ im ∧ p ∉ fm then insertDummy N' p else N') N).trs.length := by
  induction l with
  | nil =>
    intro N I _ _ hlt hs
    exact ⟨I, hlt, hs.imp id fun ⟨p, _, h⟩ => ⟨p, h⟩, rfl, Nat.le_refl _⟩
  | cons q l ih =>
    intro N I hnd hmem hlt hs
    obtain ⟨hq, hnd⟩ := List.nodup_cons.1 hnd
    rw [List.foldl_cons]
    by_cases hc : q ∈ ini ∧ q ∉ im ∧ q ∉ fm
    · rw [if_pos hc]
      have hqi : q ≠ i := fun e => hc.2.1 (e ▸ himi)
      have hqo : q ≠ o := fun e => hc.2.2 (e ▸ hfmo)
      have hqp := hmem q (by simp)
      obtain ⟨a, a', b, c, d⟩ := ih (insertDummy N q) (dum_inv I hqp hqi hqo) hnd (by
          intro x hx
          have : x ≠ q := fun e => hq (e ▸ hx)
          simp [insertDummy, hmem x (by simp [hx]), this]) (by
          intro x hx
          exact Nat.lt_of_lt_of_le (hlt x hx) (Nat.le_add_right _ _)) (by
          rcases hs with ⟨G, R⟩ | ⟨p, hp, B⟩
          · obtain ⟨R', G'⟩ := dum_ok I hqp hqi hqo G
            exact .inl ⟨G', R.trans R'⟩
          · exact .inr ⟨p, hp, dum_bad I hqp hqi hqo B fun e => hc.2.1 (e ▸ hp)⟩)
      refine ⟨a, a', b, c.trans (phi_dummy I hqp hc.1 hlt), Nat.le_trans ?_ d⟩
      rw [dum_trs]; simp
    · rw [if_neg hc]
      exact ih N I hnd (fun x hx => hmem x (by simp [hx])) hlt hs

/-- one reduction -/
theorem group_ok {A : ANet α} {ord : WN α → List (WT α × WT α)} (hord : ∀ x ∈ ord N, x.1 ∈ N.trs ∧ x.2 ∈ N.trs) (I : Inv N i o)
    (hs : (Good N i ∧ Red A (toA N) i o) ∨ ∃ p, Bad N i p) {N' : WN α} (h : groupBlocks ord N = some N') (ini : List Nat) (hini : ∀ q ∈ ini, q < N.next) :
    St A N' i o ∧ (∀ q ∈ ini, q < N'.next) ∧ phi ini N' + 1 ≤ phi ini N := by
  -- the case of a replacement
  have rep : ∀ {t1 t2 tn : WT α}, t1 ∈ N.trs → t2 ∈ N.trs → t1.id ≠ t2.id → tn.comp = true →
      ((N.replace t1 t2 tn).trs.length = 1 → ∀ t ∈ (N.replace t1 t2 tn).trs, t.comp = true) := by
    intro t1 t2 tn h1 h2 hne hc hl t ht
    rw [len_le_one (by omega) ht ((mem_replace h1 hne).2 (.inl rfl))]; exact hc
  have ph : ∀ {t1 t2 tn : WT α}, t2 ∈ N.trs → phi ini (N.replace t1 t2 tn) + 1 ≤ phi ini N := by
    intro t1 t2 tn h2
    have := replace_length (t1 := t1) (tn := tn) I.nodup h2
    have e : (N.replace t1 t2 tn).places = N.places := rfl
    simp only [phi, e]; omega
  unfold groupBlocks at h
  split at h
  · rename_i M hM
    simp only [choiceStep, Option.map_eq_some_iff] at hM
    obtain ⟨⟨t1, t2⟩, hf, rfl⟩ := hM
    cases h
    have hreq := List.find?_some hf
    obtain ⟨h1, h2⟩ := hord _ (List.mem_of_find?_eq_some hf)
    have R := choice_rep I h1 h2 hreq
    refine ⟨⟨R.I', rep h1 h2 R.ne rfl, ?_⟩, hini, ph h2⟩
    rcases hs with ⟨G, Rd⟩ | ⟨p, B⟩
    · obtain ⟨R1, G1⟩ := choice_ok I h1 h2 hreq G
      exact .inl ⟨G1, Rd.trans R1⟩
    · exact .inr ⟨p, choice_bad I h1 h2 hreq B⟩
  split at h
  · rename_i M hM
    simp only [seqStep, Option.map_eq_some_iff] at hM
    obtain ⟨⟨t1, t2⟩, hf, rfl⟩ := hM
    cases h
    have hreq := List.find?_some hf
    obtain ⟨h1, h2⟩ := hord _ (List.mem_of_find?_eq_some hf)
    have R := seq_rep I h1 h2 hreq
    have e := seq_trs I h1 h2 hreq
    refine ⟨⟨seq_inv I h1 h2 hreq, by rw [e]; exact rep h1 h2 R.ne rfl, ?_⟩, hini, ?_⟩
    · rcases hs with ⟨G, Rd⟩ | ⟨p, B⟩
      · obtain ⟨R1, G1⟩ := seq_ok I h1 h2 hreq G
        exact .inl ⟨G1, Rd.trans R1⟩
      · exact .inr ⟨p, seq_bad I h1 h2 hreq B⟩
    · refine Nat.le_trans (Nat.succ_le_succ ?_) (ph (t1 := t1) (tn := newTr .seq t1 t2 t1.pre t2.post) h2)
      simp only [phi, e]
      refine Nat.add_le_add_left ?_ _
      exact (List.filter_sublist.filter _).length_le
  split at h
  · rename_i M hM
    simp only [concStep, Option.map_eq_some_iff] at hM
    obtain ⟨⟨t1, t2⟩, hf, rfl⟩ := hM
    cases h
    have hreq := List.find?_some hf
    obtain ⟨h1, h2⟩ := hord _ (List.mem_of_find?_eq_some hf)
    have R := conc_rep I h1 h2 hreq
    refine ⟨⟨R.I', rep h1 h2 R.ne rfl, ?_⟩, hini, ph h2⟩
    rcases hs with ⟨G, Rd⟩ | ⟨p, B⟩
    · obtain ⟨R1, G1⟩ := conc_ok I h1 h2 hreq G
      exact .inl ⟨G1, Rd.trans R1⟩
    · exact .inr ⟨p, conc_bad I h1 h2 hreq B⟩
  · simp only [loopStep, Option.map_eq_some_iff] at h
    obtain ⟨⟨t1, t2⟩, hf, rfl⟩ := h
    have hreq := List.find?_some hf
    obtain ⟨h1, h2⟩ := hord _ (List.mem_of_find?_eq_some hf)
    have R := loop_rep I h1 h2 hreq
    refine ⟨⟨R.I', rep h1 h2 R.ne rfl, ?_⟩, hini, ph h2⟩
    rcases hs with ⟨G, Rd⟩ | ⟨p, B⟩
    · rcases loop_good I h1 h2 hreq G with G1 | B1
      · exact .inl ⟨G1, Rd.trans (loop_ok I h1 h2 hreq)⟩
      · exact .inr B1
    · exact .inr ⟨p, loop_bad I h1 h2 hreq B⟩

theorem insertDummies_ok {A : ANet α} (I : Inv N i o) (hs : (Good N i ∧ Red A (toA N) i o) ∨ ∃ p, Bad N i p) (ini : List Nat) (hini : ∀ q ∈ ini, q < N.next) :
    Inv (insertDummies ini N.sources N.sinks N) i o ∧ (∀ q ∈ ini, q < (insertDummies ini N.sources N.sinks N).next) ∧
    ((Good (insertDummies ini N.sources N.sinks N) i ∧ Red A (toA (insertDummies ini N.sources N.sinks N)) i o) ∨
      ∃ p, Bad (insertDummies ini N.sources N.sinks N) i p) ∧
    phi ini (insertDummies ini N.sources N.sinks N) = phi ini N ∧ N.trs.length ≤ (insertDummies ini N.sources N.sinks N).trs.length := by
  refine dummies_ok (mem_sources.2 ⟨I.ip, I.iprod⟩) (mem_sinks.2 ⟨I.op, I.ocons⟩) N.places N I I.pnd (fun _ h => h) hini ?_
  rcases hs with h | ⟨p, B⟩
  · exact .inl h
  · exact .inr ⟨p, mem_sources.2 ⟨B.pp, B.src⟩, B⟩

/-- the loop ends, and what holds at the end -/
theorem groupLoop_ok {A : ANet α} {ord : WN α → List (WT α × WT α)} (hord : ∀ N, ∀ x ∈ ord N, x.1 ∈ N.trs ∧ x.2 ∈ N.trs) (ini : List Nat) (fuel : Nat) :
    ∀ N : WN α, St A N i o → (∀ q ∈ ini, q < N.next) → phi ini N ≤ fuel → ∃ g, groupLoop ord ini fuel N = some g ∧ St A g i o := by
  induction fuel with
  | zero =>
    intro N S _ hp
    have : N.trs.length ≤ 1 := by simp only [phi] at hp; omega
    exact ⟨N, by simp [groupLoop, this], S⟩
  | succ n ih =>
    intro N S hini hp
    unfold groupLoop
    by_cases h1 : N.trs.length ≤ 1
    · exact ⟨N, by simp [h1], S⟩
    rw [if_neg h1]
    by_cases h2 : N.sources.length ≠ 1 ∧ N.sinks.length ≠ 1
    · exact ⟨N, by rw [if_pos h2], S⟩
    rw [if_neg h2]
    cases hg : groupBlocks ord N with
    | some N' =>
      obtain ⟨a, b, c⟩ := group_ok (hord N) S.inv S.st hg ini hini
      exact ih N' a b (by omega)
    | none =>
      obtain ⟨J, a, b, c, d⟩ := insertDummies_ok S.inv S.st ini hini
      cases hg' : groupBlocks ord (insertDummies ini N.sources N.sinks N) with
      | some N' =>
        obtain ⟨a', b', c'⟩ := group_ok (hord _) J b hg' ini a
        exact ih N' a' b' (by omega)
      | none => exact ⟨_, rfl, J, fun h => by omega, b⟩

/-! ### A net with one transition -/

theorem single_reach {A : ANet α} {t : Nat} (hT : ∀ x, A.T x ↔ x = t) {i : Nat} (hpi : ∀ p, A.pre t p → p ≠ i → False)
    (hne : ∃ p, A.pre t p) (hq : ¬ A.post t i) {c : Cfg α} (hr : Reach A i c) :
    (c = init i) ∨ (∃ h, c.R t = some h ∧ (∀ p, c.M p = 0) ∧ ∀ x, x ≠ t → c.R x = none) ∨
      ((∀ p, c.M p = if A.post t p then 1 else 0) ∧ ∀ x, c.R x = none) := by
  obtain ⟨w, hr⟩ := hr
  have hpit : A.pre t i := by
    obtain ⟨p, hp⟩ := hne
    by_cases e : p = i
    · exact e ▸ hp
    · exact (hpi p hp e).elim
  have key : ∀ {c d : Cfg α} {w : List α}, Run (StepH A.free) c w d →
      ((c = init i) ∨ (∃ h, c.R t = some h ∧ (∀ p, c.M p = 0) ∧ ∀ x, x ≠ t → c.R x = none) ∨
      ((∀ p, c.M p = if A.post t p then 1 else 0) ∧ ∀ x, c.R x = none)) →
      ((d = init i) ∨ (∃ h, d.R t = some h ∧ (∀ p, d.M p = 0) ∧ ∀ x, x ≠ t → d.R x = none) ∨
      ((∀ p, d.M p = if A.post t p then 1 else 0) ∧ ∀ x, d.R x = none)) := by
    have st : ∀ {c d : Cfg α} {l : Option α}, StepH A.free c l d →
        ((c = init i) ∨ (∃ h, c.R t = some h ∧ (∀ p, c.M p = 0) ∧ ∀ x, x ≠ t → c.R x = none) ∨
        ((∀ p, c.M p = if A.post t p then 1 else 0) ∧ ∀ x, c.R x = none)) →
        ((d = init i) ∨ (∃ h, d.R t = some h ∧ (∀ p, d.M p = 0) ∧ ∀ x, x ≠ t → d.R x = none) ∨
        ((∀ p, d.M p = if A.post t p then 1 else 0) ∧ ∀ x, d.R x = none)) := by
      intro c d l s hc
      cases s with
      | start x hx hn hp =>
        have e := (hT x).1 hx
        subst e
        rcases hc with rfl | ⟨h, h1, _⟩ | ⟨h1, h2⟩
        · refine .inr (.inl ⟨[], by simp, ?_, ?_⟩)
          · intro p
            show (if A.pre x p then (init i : Cfg α).M p - 1 else (init i : Cfg α).M p) = 0
            by_cases e : p = i
            · subst e; simp [hpit, init]
            · simp [init, e]
          · intro y hy; simp [setR, hy, init]
        · rw [hn] at h1; cases h1
        · have := hp i hpit
          rw [h1 i, if_neg hq] at this; omega
      | emit x a h hx =>
        by_cases e : x = t
        · subst e
          rcases hc with rfl | ⟨h', h1, h2, h3⟩ | ⟨h1, h2⟩
          · simp [init] at hx
          · exact .inr (.inl ⟨h ++ [a], by simp, h2, fun y hy => by simp [setR, hy, h3 y hy]⟩)
          · rw [h2] at hx; cases hx
        · rcases hc with rfl | ⟨h', h1, h2, h3⟩ | ⟨h1, h2⟩
          · simp [init] at hx
          · rw [h3 x e] at hx; cases hx
          · rw [h2] at hx; cases hx
      | stop x h hx hL =>
        by_cases e : x = t
        · subst e
          rcases hc with rfl | ⟨h', h1, h2, h3⟩ | ⟨h1, h2⟩
          · simp [init] at hx
          · refine .inr (.inr ⟨?_, ?_⟩)
            · intro p
              show (if A.post x p then c.M p + 1 else c.M p) = _
              simp [h2 p]
            · intro y
              by_cases e : y = x
              · subst e; simp
              · simp [setR, e, h3 y e]
          · rw [h2] at hx; cases hx
        · rcases hc with rfl | ⟨h', h1, h2, h3⟩ | ⟨h1, h2⟩
          · simp [init] at hx
          · rw [h3 x e] at hx; cases hx
          · rw [h2] at hx; cases hx
    intro c d w hr
    induction hr with
    | nil c => exact fun h => h
    | tau s _ ih => exact fun h => ih (st s h)
    | vis s _ ih => exact fun h => ih (st s h)
  exact key hr (.inl rfl)

/-- if a place other than the initial one is needed, nothing happens -/
theorem single_dead {A : ANet α} {t : Nat} (hT : ∀ x, A.T x ↔ x = t) {i p : Nat} (hp : A.pre t p) (hpi : p ≠ i) {c : Cfg α} (hr : Reach A i c) :
    c = init i := by
  obtain ⟨w, hr⟩ := hr
  have key : ∀ {c d : Cfg α} {w : List α}, Run (StepH A.free) c w d → c = init i → d = init i := by
    have st : ∀ {c d : Cfg α} {l : Option α}, StepH A.free c l d → c = init i → d = init i := by
      intro c d l s hc
      subst hc
      cases s with
      | start x hx hn hpp =>
        have e := (hT x).1 hx
        subst e
        have := hpp p hp
        simp [init, hpi] at this
      | emit x a h hx => simp [init] at hx
      | stop x h hx => simp [init] at hx
    intro c d w hr
    induction hr with
    | nil c => exact fun h => h
    | tau s _ ih => exact fun h => ih (st s h)
    | vis s _ ih => exact fun h => ih (st s h)
  exact key hr rfl

theorem single_safe {A : ANet α} {t : Nat} (hT : ∀ x, A.T x ↔ x = t) {i : Nat} (hne : ∃ p, A.pre t p) (hq : ¬ A.post t i) : Safe A i := by
  have initSafe : SafeCfg A (init i : Cfg α) := by
    refine ⟨fun p => ?_, fun t h p ht => ?_, fun t h p ht => ?_⟩
    · simp only [init]; split <;> omega
    · simp [init] at ht
    · simp [init] at ht
  intro c hr
  by_cases hpi : ∃ p, A.pre t p ∧ p ≠ i
  · obtain ⟨p, hp, e⟩ := hpi
    rw [single_dead hT hp e hr]; exact initSafe
  · rcases single_reach hT (fun p hp e => hpi ⟨p, hp, e⟩) hne hq hr with rfl | ⟨h, h1, h2, h3⟩ | ⟨h1, h2⟩
    · exact initSafe
    · exact ⟨fun p => by rw [h2]; omega, fun _ _ p _ _ => h2 p, fun _ _ p _ _ => h2 p⟩
    · refine ⟨fun p => ?_, fun t h p ht => ?_, fun t h p ht => ?_⟩
      · rw [h1]; split <;> omega
      · rw [h2] at ht; cases ht
      · rw [h2] at ht; cases ht

/-- the language of a net with one transition: its own language if it leads from `i` to `o`, otherwise it is empty -/
theorem single_lang {A : ANet α} {t : Nat} (hT : ∀ x, A.T x ↔ x = t) {i o : Nat} (hio : i ≠ o) (hne : ∃ p, A.pre t p) (hq : ¬ A.post t i) (w0 : List α)
    (hw : LangH A i o w0) : ∀ w, LangH A i o w ↔ A.L t w := by
  -- the transition leads from `i` to `o`
  have hpi : ∀ p, A.pre t p → p ≠ i → False := by
    intro p hp e
    obtain ⟨d, r, f, _⟩ := hw
    have := single_dead hT hp e ⟨w0, r.mono fun _ _ _ s => stepH_free s⟩
    subst this
    have := f o
    simp [init, Ne.symm hio] at this
  have hpit : A.pre t i := by
    obtain ⟨p, hp⟩ := hne
    by_cases e : p = i
    · exact e ▸ hp
    · exact (hpi p hp e).elim
  have hpost : ∀ p, A.post t p ↔ p = o := by
    obtain ⟨d, r, f, f2⟩ := hw
    rcases single_reach hT hpi hne hq ⟨w0, r.mono fun _ _ _ s => stepH_free s⟩ with rfl | ⟨h, h1, h2, h3⟩ | ⟨h1, h2⟩
    · have := f o
      simp [init, Ne.symm hio] at this
    · rw [f2] at h1; cases h1
    · intro p
      have a := h1 p
      have b := f p
      rw [a] at b
      constructor
      · intro h
        rw [if_pos h] at b
        by_cases e : p = o
        · exact e
        · rw [if_neg e] at b; omega
      · intro h
        rw [if_pos h] at b
        by_cases e : A.post t p
        · exact e
        · rw [if_neg e] at b; omega
  intro w
  constructor
  · -- every run is a run of the transition
    rintro ⟨d, r, f, f2⟩
    have key : ∀ {c d : Cfg α} {w : List α}, Run (StepH A) c w d → (∀ t, d.R t = none) → (∀ p, d.M p = if p = o then 1 else 0) →
        (c = init i → A.L t w) ∧ ((∀ p, c.M p = 0) → (∀ x, x ≠ t → c.R x = none) → ∀ h, c.R t = some h → A.L t (h ++ w)) ∧
        ((∀ p, c.M p = if p = o then 1 else 0) → (∀ x, c.R x = none) → w = []) := by
      intro c d w r f2 f
      induction r with
      | nil c =>
        refine ⟨?_, ?_, fun _ _ => rfl⟩
        · rintro rfl
          have := f o
          simp [init, Ne.symm hio] at this
        · intro h1 _ h hh
          rw [f2] at hh; cases hh
      | @tau c c1 d w s _ ih =>
        obtain ⟨i1, i2, i3⟩ := ih f2 f
        cases s with
        | start x hx hn hp =>
          have e := (hT x).1 hx
          subst e
          refine ⟨?_, ?_, ?_⟩
          · rintro rfl
            have := i2 (by
              intro p
              show (if A.pre x p then (init i : Cfg α).M p - 1 else (init i : Cfg α).M p) = 0
              by_cases e : p = i
              · subst e; simp [hpit, init]
              · simp [init, e]) (fun y hy => by simp [setR, hy, init]) [] (by simp)
            simpa using this
          · intro _ _ h hh
            rw [hn] at hh; cases hh
          · intro h1 h2
            have := hp i hpit
            rw [h1 i, if_neg hio] at this; omega
        | stop x h hx hL =>
          refine ⟨?_, ?_, ?_⟩
          · rintro rfl; simp [init] at hx
          · intro h1 h2 h' hh'
            have e : x = t := by
              by_cases e : x = t
              · exact e
              · rw [h2 x e] at hx; cases hx
            subst e
            rw [hx] at hh'; cases hh'
            have := i3 (by
              intro p
              show (if A.post x p then c.M p + 1 else c.M p) = _
              simp [h1 p, hpost]) (by
              intro y
              by_cases e : y = x
              · subst e; simp
              · simp [setR, e, h2 y e])
            rw [this]; simpa using hL
          · intro _ h2; rw [h2] at hx; cases hx
      | @vis c c1 d w a s _ ih =>
        obtain ⟨i1, i2, i3⟩ := ih f2 f
        cases s with
        | emit x _ h hx =>
          refine ⟨?_, ?_, ?_⟩
          · rintro rfl; simp [init] at hx
          · intro h1 h2 h' hh'
            have e : x = t := by
              by_cases e : x = t
              · exact e
              · rw [h2 x e] at hx; cases hx
            subst e
            rw [hx] at hh'; cases hh'
            have := i2 h1 (fun y hy => by simp [setR, hy, h2 y hy]) (h ++ [a]) (by simp)
            simpa using this
          · intro _ h2; rw [h2] at hx; cases hx
    exact (key r f2 f).1 rfl
  · intro hL
    rw [← langU_iff]
    have s1 : StepU A (init i : Cfg α) none ⟨A.take t (init i : Cfg α).M, setR (init i : Cfg α).R t (some w)⟩ :=
      .start _ t w ((hT t).2 rfl) rfl (fun p hp => by
        have : p = i := Classical.byContradiction fun e => hpi p hp e
        simp [init, this]) hL
    have mids : ∀ (w : List α) (M : Nat → Nat) (R : Nat → Option (List α)), Run (StepU A) ⟨M, setR R t (some w)⟩ w ⟨A.put t M, setR R t none⟩ := by
      intro w
      induction w with
      | nil =>
        intro M R
        have := StepU.stop (A := A) (⟨M, setR R t (some [])⟩ : Cfg α) t (by simp)
        have e : setR (setR R t (some [])) t none = setR R t none := by funext x; simp only [setR]; split <;> rfl
        simp only [e] at this
        exact .tau this (.nil _)
      | cons a w ih =>
        intro M R
        have := StepU.emit (A := A) (⟨M, setR R t (some (a :: w))⟩ : Cfg α) t a w (by simp)
        have e : setR (setR R t (some (a :: w))) t (some w) = setR R t (some w) := by funext x; simp only [setR]; split <;> rfl
        simp only [e] at this
        exact .vis this (ih M R)
    refine ⟨_, .tau s1 (mids w _ _), ?_, ?_⟩
    · intro p
      show (if A.post t p then (if A.pre t p then (init i : Cfg α).M p - 1 else (init i : Cfg α).M p) + 1 else (if A.pre t p then (init i : Cfg α).M p - 1 else (init i : Cfg α).M p)) = _
      simp only [hpost]
      by_cases e : p = i
      · subst e; simp [init, hpit, hio]
      · simp [init, e]
    · intro x
      simp only [setR, init]; split <;> rfl

/-- the conversion keeps the language, if there is a complete run -/
theorem final_ok {A : ANet α} {g : WN α} (S : St A g i o) {t : WT α} (ht : g.trs = [t]) (w0 : List α) (hw : LangH A i o w0) :
    t.comp = true ∧ PT.WF t.tree ∧ ∀ w, LangH A i o w ↔ t.tree.lang w := by
  have hm : t ∈ g.trs := by simp [ht]
  have hl : g.trs.length = 1 := by simp [ht]
  refine ⟨S.comp hl t hm, S.inv.wf t hm, ?_⟩
  rcases S.st with ⟨G, R⟩ | ⟨p, B⟩
  · have hT : ∀ x, (toA g).T x ↔ x = t.id := by
      intro x
      simp only [toA, ht, List.mem_singleton, exists_eq_left]
      exact eq_comm
    have hne : ∃ p, (toA g).pre t.id p := by
      obtain ⟨p, hp⟩ := List.exists_mem_of_ne_nil _ (S.inv.nePre t hm)
      exact ⟨p, (toA_pre S.inv.nodup hm p).2 hp⟩
    have hq : ¬ (toA g).post t.id i := by rw [toA_post S.inv.nodup hm]; exact S.inv.iprod t hm
    obtain ⟨_, hl⟩ := R (single_safe hT hne hq)
    have := single_lang hT S.inv.io hne hq w0 ((hl w0).1 hw)
    intro w
    rw [hl w, this w, toA_L S.inv.nodup hm]
  · exact absurd hl (B.not_single S.inv)

end Verif.WfTree
