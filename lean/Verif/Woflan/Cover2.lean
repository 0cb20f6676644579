import Verif.Woflan.Cover
import Mathlib.Order.Nat
import Mathlib.Data.Nat.Find
set_option linter.unusedSectionVars false
/-
C63: the minimal coverability graph of a net whose reachable markings are incomparable: the construction ends and finds every
transition that can fire.
-/
namespace Verif.Woflan
variable {P T : Type}

/-- No reachable marking is smaller than another. -/
def Incomparable (N : WNet P T) (m0 : Mk P) : Prop := ∀ m m', Reaches N m0 m → Reaches N m0 m' → m ≤ m' → m = m'

/-- The node has edges for all transitions that can fire in its marking. -/
def Expanded (N : WNet P T) (s : Mct P T) (z : Nat) (m : Mk P) : Prop :=
  z ∈ s.proc ∧ s.mark z = some (vec m) ∧ ∀ t m', Fires N m t m' → ∃ y, (z, t, y) ∈ s.edges ∧ s.mark y = some (vec m')

structure MFull (N : WNet P T) (m0 : Mk P) (s : Mct P T) : Prop where
  inv : MInv N m0 s
  root : s.mark 0 = some (vec m0)
  live : ∀ x ∈ s.unproc, ∃ m, s.mark x = some (vec m)
  lists : ∀ x v, s.mark x = some v → x ∈ s.proc ∨ x ∈ s.unproc
  done : ∀ x ∈ s.proc, ∃ m, s.mark x = some (vec m) ∧ ∃ z, Expanded N s z m

/-- What the nodes and edges for the successors are. -/
theorem addSucc_spec (n : Nat) (todo : List (Vec P × T)) (s : Mct P T) (hf : ∀ x, s.next ≤ x → s.mark x = none) :
    (todo.foldl (addSucc n) s).proc = s.proc ∧
    (∀ x v, s.mark x = some v → (todo.foldl (addSucc n) s).mark x = some v) ∧
    (∀ e ∈ s.edges, e ∈ (todo.foldl (addSucc n) s).edges) ∧
    (∀ x ∈ s.unproc, x ∈ (todo.foldl (addSucc n) s).unproc) ∧
    (∀ x ∈ (todo.foldl (addSucc n) s).unproc, x ∈ s.unproc ∨ ∃ el ∈ todo, (todo.foldl (addSucc n) s).mark x = some el.1) ∧
    (∀ x v, (todo.foldl (addSucc n) s).mark x = some v → s.mark x = some v ∨ x ∈ (todo.foldl (addSucc n) s).unproc) ∧
    (∀ el ∈ todo, ∃ y, (n, el.2, y) ∈ (todo.foldl (addSucc n) s).edges ∧ (todo.foldl (addSucc n) s).mark y = some el.1) := by
  induction todo generalizing s with
  | nil => exact ⟨rfl, fun _ _ h => h, fun _ h => h, fun _ h => h, fun _ h => .inl h,
      fun _ _ h => .inl h, fun _ h => by cases h⟩
  | cons el todo ih =>
    have hf' : ∀ x, (addSucc n s el).next ≤ x → (addSucc n s el).mark x = none := by
      intro x hx
      simp only [addSucc] at hx ⊢
      rw [if_neg (by omega)]
      exact hf x (by omega)
    obtain ⟨h1, h2, h3, h4, h5, h6, h7⟩ := ih (addSucc n s el) hf'
    simp only [List.foldl_cons]
    have hm : ∀ x v, s.mark x = some v → (addSucc n s el).mark x = some v := by
      intro x v hx
      simp only [addSucc]
      rw [if_neg]
      · exact hx
      · intro e
        rw [e, hf _ (Nat.le_refl _)] at hx
        cases hx
    have hnext : (addSucc n s el).mark s.next = some el.1 := by simp [addSucc]
    refine ⟨h1, fun x v hx => h2 x v (hm x v hx), fun e he => h3 e (List.mem_append_left _ he),
      fun x hx => h4 x (List.mem_append_left _ hx), ?_, ?_, ?_⟩
    · intro x hx
      rcases h5 x hx with h | ⟨el', he, hm'⟩
      · simp only [addSucc, List.mem_append, List.mem_singleton] at h
        rcases h with h | rfl
        · exact .inl h
        · exact .inr ⟨el, List.mem_cons_self, h2 _ _ hnext⟩
      · exact .inr ⟨el', List.mem_cons_of_mem _ he, hm'⟩
    · intro x v hx
      rcases h6 x v hx with h | h
      · simp only [addSucc] at h
        split at h
        · rename_i e
          right
          subst e
          exact h4 _ (by simp [addSucc])
        · exact .inl h
      · exact .inr h
    · intro el' he
      rcases List.mem_cons.1 he with rfl | he
      · exact ⟨s.next, h3 _ (by simp [addSucc]), h2 _ _ hnext⟩
      · exact h7 el' he

theorem vec_some_inj {m m' : Mk P} {o : Option (Vec P)} (h : o = some (vec m)) (h' : o = some (vec m')) : m = m' :=
  vec_inj (Option.some.inj (h.symm.trans h'))

section
variable {N : WNet P T} (hN : Listed N) {m0 : Mk P} (hI : Incomparable N m0)
include hN hI

theorem not_le_of_new {s : Mct P T} (h : MInv N m0 s) {v : Vec P} {n : Nat} (hn : s.mark n = some v)
    (hnew : ¬ ∃ x ∈ s.proc, s.mark x = some v) :
    (¬ ∃ x ∈ s.proc, ∃ w, s.mark x = some w ∧ v ≤ w) ∧ ¬ ∃ x ∈ s.proc, ∃ w, s.mark x = some w ∧ w ≤ v := by
  obtain ⟨m, rfl, hm⟩ := h.nodes n v hn
  constructor
  · rintro ⟨x, hx, w, hw, hle⟩
    obtain ⟨m', rfl, hm'⟩ := h.nodes x w hw
    have := hI m m' hm hm' (vec_le.1 hle)
    subst this
    exact hnew ⟨x, hx, hw⟩
  · rintro ⟨x, hx, w, hw, hle⟩
    obtain ⟨m', rfl, hm'⟩ := h.nodes x w hw
    have := hI m' m hm' hm (vec_le.1 hle)
    subst this
    exact hnew ⟨x, hx, hw⟩

/-- The only steps are `same` and `expand`. -/
theorem mct_step_cases {s s' : Mct P T} (h : MFull N m0 s) (hs : MctStep N s s') :
    ∃ us n m, s.unproc = us ++ [n] ∧ s.mark n = some (vec m) ∧
      (((∃ x ∈ s.proc, s.mark x = some (vec m)) ∧ s' = { s with unproc := us, proc := n :: s.proc }) ∨
       ((¬ ∃ x ∈ s.proc, s.mark x = some (vec m)) ∧
         s' = { (enabledMarkings N (vec m)).foldl (addSucc n) { s with unproc := us } with proc := n :: s.proc })) := by
  cases hs with
  | @same us n v hu hn hx =>
    obtain ⟨m, rfl, hm⟩ := h.inv.nodes n v hn
    exact ⟨us, n, m, hu, hn, .inl ⟨hx, rfl⟩⟩
  | smaller _ hn hnew hc _ => exact absurd hc (not_le_of_new hN hI h.inv hn hnew).1
  | greaterAncestor _ hn hnew _ hc => exact absurd hc (not_le_of_new hN hI h.inv hn hnew).2
  | greater _ hn hnew _ hc => exact absurd hc (not_le_of_new hN hI h.inv hn hnew).2
  | @expand us n v hu hn hx _ _ =>
    obtain ⟨m, rfl, hm⟩ := h.inv.nodes n v hn
    exact ⟨us, n, m, hu, hn, .inr ⟨hx, rfl⟩⟩

theorem mctStep_full {s s' : Mct P T} (h : MFull N m0 s) (hs : MctStep N s s') (hinv : MInv N m0 s') : MFull N m0 s' := by
  obtain ⟨us, n, m, hu, hn, h' | h'⟩ := mct_step_cases hN hI h hs
  · obtain ⟨⟨x, hx, hxm⟩, rfl⟩ := h'
    refine ⟨hinv, h.root, ?_, ?_, ?_⟩
    · intro y hy
      exact h.live y (by rw [hu]; exact List.mem_append_left _ hy)
    · intro y v hy
      rcases h.lists y v hy with h1 | h1
      · exact .inl (List.mem_cons_of_mem _ h1)
      · rw [hu] at h1
        simp only [List.mem_append, List.mem_singleton] at h1
        rcases h1 with h1 | rfl
        · exact .inr h1
        · exact .inl List.mem_cons_self
    · intro y hy
      have lift : ∀ z m, Expanded N s z m → Expanded N { s with unproc := us, proc := n :: s.proc } z m :=
        fun z m hz => ⟨List.mem_cons_of_mem _ hz.1, hz.2⟩
      simp only [List.mem_cons] at hy
      rcases hy with rfl | hy
      · obtain ⟨m1, h1, z, hz⟩ := h.done x hx
        have : m1 = m := vec_some_inj h1 hxm
        subst this
        exact ⟨m1, hn, z, lift z m1 hz⟩
      · obtain ⟨m1, h1, z, hz⟩ := h.done y hy
        exact ⟨m1, h1, z, lift z m1 hz⟩
  · obtain ⟨hnew, rfl⟩ := h'
    have hsp := addSucc_spec n (enabledMarkings N (vec m)) { s with unproc := us } h.inv.fresh
    generalize hS : (enabledMarkings N (vec m)).foldl (addSucc n) { s with unproc := us } = S at hsp hinv ⊢
    obtain ⟨h1, h2, h3, h4, h5, h6, h7⟩ := hsp
    refine ⟨hinv, h2 _ _ h.root, ?_, ?_, ?_⟩
    · intro y hy
      rcases h5 y hy with h8 | ⟨el, hel, h8⟩
      · obtain ⟨m1, hm1⟩ := h.live y (by rw [hu]; exact List.mem_append_left _ h8)
        exact ⟨m1, h2 _ _ hm1⟩
      · obtain ⟨m', e, _⟩ := (mem_enabled hN (v := el.1) (t := el.2)).1 hel
        exact ⟨m', by rw [← e]; exact h8⟩
    · intro y v hy
      rcases h6 y v hy with h8 | h8
      · rcases h.lists y v h8 with h9 | h9
        · exact .inl (List.mem_cons_of_mem _ h9)
        · rw [hu] at h9
          simp only [List.mem_append, List.mem_singleton] at h9
          rcases h9 with h9 | rfl
          · exact .inr (h4 y h9)
          · exact .inl List.mem_cons_self
      · exact .inr h8
    · have lift : ∀ z m, Expanded N s z m → Expanded N { S with proc := n :: s.proc } z m := by
        intro z m1 hz
        refine ⟨List.mem_cons_of_mem _ hz.1, h2 _ _ hz.2.1, fun t m' hf => ?_⟩
        obtain ⟨y, hy1, hy2⟩ := hz.2.2 t m' hf
        exact ⟨y, h3 _ hy1, h2 _ _ hy2⟩
      intro y hy
      simp only [List.mem_cons] at hy
      rcases hy with rfl | hy
      · refine ⟨m, h2 _ _ hn, y, List.mem_cons_self, h2 _ _ hn, fun t m' hf => ?_⟩
        exact h7 (vec m', t) ((mem_enabled hN).2 ⟨m', rfl, hf⟩)
      · obtain ⟨m1, e1, z, hz⟩ := h.done y hy
        exact ⟨m1, h2 _ _ e1, z, lift z m1 hz⟩

omit hI in
theorem mctInit_full : MFull N m0 (mctInit (vec m0)) := by
  refine ⟨mctInit_inv N m0, by simp [mctInit], ?_, ?_, by simp [mctInit]⟩
  · intro x hx
    simp only [mctInit, List.mem_singleton] at hx
    subst hx
    exact ⟨m0, by simp [mctInit]⟩
  · intro x v hx
    simp only [mctInit] at hx ⊢
    split at hx
    · simp_all
    · cases hx

variable (hb : Bounded N m0)
include hb

theorem mct_full {s : Mct P T} (hs : Relation.ReflTransGen (MctStep N) (mctInit (vec m0)) s) : MFull N m0 s := by
  induction hs with
  | refl => exact mctInit_full hN
  | tail _ e ih => exact mctStep_full hN hI ih e (mctStep_inv hN hb ih.inv e)

open Classical in
theorem mct_acc : Acc (fun s' s => MctStep N s s') (mctInit (vec m0) : Mct P T) := by
  obtain ⟨l, hl⟩ := hb
  let todo : Mct P T → List (Mk P) := fun s => l.filter fun m => decide (¬ ∃ x ∈ s.proc, s.mark x = some (vec m))
  have key : ∀ (e k : Nat) (s : Mct P T), MFull N m0 s → (todo s).length ≤ e → s.unproc.length ≤ k →
      Acc (fun s' s => MctStep N s s') s := by
    intro e
    induction e with
    | zero =>
      intro k
      induction k with
      | zero =>
        intro s h _ hk
        refine Acc.intro _ fun s' hs => ?_
        obtain ⟨us, n, m, hu, _⟩ := mct_step_cases hN hI h hs
        rw [hu] at hk
        simp at hk
      | succ k ihk =>
        intro s h he hk
        refine Acc.intro _ fun s' hs => ?_
        have hf := mctStep_full hN hI h hs (mctStep_inv hN ⟨l, hl⟩ h.inv hs)
        obtain ⟨us, n, m, hu, hn, h' | h'⟩ := mct_step_cases hN hI h hs
        · obtain ⟨_, rfl⟩ := h'
          refine ihk _ hf ?_ ?_
          · refine Nat.le_trans (List.Sublist.length_le (List.monotone_filter_right _ ?_)) he
            intro m1 hm1
            simp only [decide_eq_true_eq] at hm1 ⊢
            rintro ⟨x, hx, hx'⟩
            exact hm1 ⟨x, List.mem_cons_of_mem _ hx, hx'⟩
          · rw [hu] at hk
            simp at hk
            exact hk
        · exfalso
          obtain ⟨hnew, _⟩ := h'
          have hm : m ∈ todo s := by
            obtain ⟨m1, e1, hr⟩ := h.inv.nodes n _ hn
            rw [← vec_inj e1] at hr
            exact List.mem_filter.2 ⟨hl m hr, by simpa using hnew⟩
          have := List.length_pos_of_mem hm
          omega
    | succ e ihe =>
      intro k
      induction k with
      | zero =>
        intro s h _ hk
        refine Acc.intro _ fun s' hs => ?_
        obtain ⟨us, n, m, hu, _⟩ := mct_step_cases hN hI h hs
        rw [hu] at hk
        simp at hk
      | succ k ihk =>
        intro s h he hk
        refine Acc.intro _ fun s' hs => ?_
        have hf := mctStep_full hN hI h hs (mctStep_inv hN ⟨l, hl⟩ h.inv hs)
        obtain ⟨us, n, m, hu, hn, h' | h'⟩ := mct_step_cases hN hI h hs
        · obtain ⟨_, rfl⟩ := h'
          refine ihk _ hf ?_ ?_
          · refine Nat.le_trans (List.Sublist.length_le (List.monotone_filter_right _ ?_)) he
            intro m1 hm1
            simp only [decide_eq_true_eq] at hm1 ⊢
            rintro ⟨x, hx, hx'⟩
            exact hm1 ⟨x, List.mem_cons_of_mem _ hx, hx'⟩
          · rw [hu] at hk
            simp at hk
            exact hk
        · obtain ⟨hnew, e'⟩ := h'
          refine ihe _ s' hf ?_ (Nat.le_refl _)
          have hsp := addSucc_spec n (enabledMarkings N (vec m)) { s with unproc := us } h.inv.fresh
          have hm : m ∈ todo s := by
            obtain ⟨m1, e1, hr⟩ := h.inv.nodes n _ hn
            rw [← vec_inj e1] at hr
            exact List.mem_filter.2 ⟨hl m hr, by simpa using hnew⟩
          have hlt : (todo s').length < (todo s).length := by
            have hsub : ∀ a, (decide (¬ ∃ x ∈ s'.proc, s'.mark x = some (vec a))) = true →
                (decide (¬ ∃ x ∈ s.proc, s.mark x = some (vec a))) = true := by
              intro a ha
              simp only [decide_eq_true_eq] at ha ⊢
              rintro ⟨x, hx, hx'⟩
              rw [e'] at ha
              exact ha ⟨x, List.mem_cons_of_mem _ hx, hsp.2.1 _ _ hx'⟩
            have hsl := List.monotone_filter_right l hsub
            refine Nat.lt_of_le_of_ne hsl.length_le fun heq => ?_
            have heq' := hsl.eq_of_length heq
            have : m ∈ todo s' := by simp only [todo]; rw [heq']; exact hm
            have := (List.mem_filter.1 this).2
            simp only [decide_eq_true_eq] at this
            rw [e'] at this
            exact this ⟨n, List.mem_cons_self, hsp.2.1 _ _ hn⟩
          omega
  exact key _ _ _ (mctInit_full hN) (Nat.le_refl _) (Nat.le_refl _)

theorem mct_ends : ∃ s, MctEnds N (vec m0) s := by
  have key : ∀ s : Mct P T, Acc (fun s' s => MctStep N s s') s → MFull N m0 s →
      ∃ g, Relation.ReflTransGen (MctStep N) s g ∧ g.unproc = [] := by
    intro s ha
    induction ha with
    | intro s _ ih =>
      intro hi
      rcases List.eq_nil_or_concat s.unproc with hw | ⟨us, n, hw⟩
      · exact ⟨s, .refl, hw⟩
      · rw [List.concat_eq_append] at hw
        obtain ⟨m, hm⟩ := hi.live n (by rw [hw]; simp)
        by_cases hnew : ∃ x ∈ s.proc, s.mark x = some (vec m)
        · have hs : MctStep N s _ := .same hw hm hnew
          obtain ⟨g, h1, h2⟩ := ih _ hs (mctStep_full hN hI hi hs (mctStep_inv hN hb hi.inv hs))
          exact ⟨g, .head hs h1, h2⟩
        · have hle := not_le_of_new hN hI hi.inv hm hnew
          have hs : MctStep N s _ := .expand hw hm hnew hle.1 hle.2
          obtain ⟨g, h1, h2⟩ := ih _ hs (mctStep_full hN hI hi hs (mctStep_inv hN hb hi.inv hs))
          exact ⟨g, .head hs h1, h2⟩
  exact key _ (mct_acc hN hI hb) (mctInit_full hN)

theorem mct_all {s : Mct P T} (hs : MctEnds N (vec m0) s) {m : Mk P} (hm : Reaches N m0 m) : ∃ z, Expanded N s z m := by
  have h := mct_full hN hI hb hs.1
  have fin : ∀ x m, s.mark x = some (vec m) → ∃ z, Expanded N s z m := by
    intro x m hx
    rcases h.lists x _ hx with h1 | h1
    · obtain ⟨m1, e, z, hz⟩ := h.done x h1
      exact ⟨z, vec_some_inj e hx ▸ hz⟩
    · rw [hs.2] at h1; cases h1
  induction hm with
  | refl => exact fin 0 m0 h.root
  | tail _ e ih =>
    obtain ⟨z, hz⟩ := ih
    obtain ⟨t, ht⟩ := e
    obtain ⟨y, _, hy⟩ := hz.2.2 t _ ht
    exact fin y _ hy

open Classical in
theorem rep_exists {s : Mct P T} {x : Nat} {v : Vec P} (hx : s.mark x = some v) : ∃ y, Rep N s x y := by
  have hex : ∃ y, ∃ w, s.mark y = some w ∧ key N v = key N w := ⟨x, v, hx, rfl⟩
  obtain ⟨w, hw, hk⟩ := Nat.find_spec hex
  refine ⟨Nat.find hex, v, w, hx, hw, hk, fun z hz u hu hku => Nat.find_min hex hz ⟨u, hu, hku⟩⟩

/-- No task is reported dead, and no marking is infinite. -/
theorem mct_dead (h1000 : N.places.length ≤ 1000) {s : Mct P T} (hs : MctEnds N (vec m0) s)
    (ht : ∀ t, N.label t ≠ none → ∃ m, Reaches N m0 m ∧ Enabled N m t) : deadTasks N s = [] ∧ ¬ Improper N s := by
  constructor
  · unfold deadTasks
    rw [List.filter_eq_nil_iff]
    intro t _
    simp only [decide_eq_true_eq, not_and, not_not]
    intro hl
    obtain ⟨m, hm, he⟩ := ht t hl
    obtain ⟨z, _, hz, hz'⟩ := mct_all hN hI hb hs hm
    obtain ⟨y, hy, hy'⟩ := hz' t _ ⟨he, fun p => rfl⟩
    obtain ⟨z0, hz0⟩ := rep_exists hN hI hb hz
    obtain ⟨y0, hy0⟩ := rep_exists hN hI hb hy'
    refine ⟨z0, y0, ⟨z, y, hy, hz0, hy0⟩, ?_⟩
    obtain ⟨v, w, e1, e2, e3, _⟩ := hz0
    obtain ⟨v', w', e1', e2', e3', _⟩ := hy0
    have k1 := key_inj hN h1000 e3
    have k2 := key_inj hN h1000 e3'
    have e4 : v = vec m := Option.some.inj (e1.symm.trans hz)
    have e5 := Option.some.inj (e1'.symm.trans hy')
    refine ⟨w, w', e2, e2', (w', t), ?_, rfl⟩
    rw [← k1, e4]
    exact (mem_enabled hN).2 ⟨_, k2.symm.trans e5, he, fun p => rfl⟩
  · rintro ⟨x, v, p, _, hv, hp⟩
    obtain ⟨m, rfl, _⟩ := (mct_full hN hI hb hs.1).inv.nodes x v hv
    simp [vec] at hp

end
end Verif.Woflan
