import Verif.DfgAlign.Paths
/-
C52: the argument for optimality on paths. `X` are the expanded paths, `O` the paths waiting in the queue.
-/
set_option linter.unusedSectionVars false
namespace Verif.DfgAlign
variable {α : Type} [DecidableEq α]

def lastModel (P : List (Step α)) : Bool := match P.getLast? with
  | some (.model _) => true
  | _ => false

/-- the steps with which the code extends a path -/
def Allowed (G : Graph α) (tr : List α) (P : List (Step α)) : Step α → Prop
  | .sync a => tr[(cons P).length]? = some a ∧ Node.act a ∈ G.out (dest .start P)
  | .model b => Node.act b ∈ G.out (dest .start P) ∧
      ∀ a, tr[(cons P).length]? = some a → G.inModel a = true ∧ Node.act a ∉ G.out (dest .start P)
  | .fin => Node.fin ∈ G.out (dest .start P) ∧ ∀ a, tr[(cons P).length]? = some a → G.inModel a = true
  | .log a => tr[(cons P).length]? = some a ∧ lastModel P = false

structure Front (G : Graph α) (tr : List α) (k : Nat) (X O : List (Step α) → Prop) : Prop where
  ok : ∀ P, X P → Ok G .start P
  pre : ∀ P, X P → cons P <+: tr
  nt : ∀ P, X P → ¬ (dest .start P = .fin ∧ cons P = tr)
  parent : ∀ P s, X (P ++ [s]) → X P
  exp : ∀ P s, X P → Allowed G tr P s → O (P ++ [s]) ∨ ∃ C, X C ∧ dest .start C = dest .start (P ++ [s]) ∧
    (cons (P ++ [s])).length ≤ (cons C).length ∧ gcost G (Costs.uniform k) C ≤ gcost G (Costs.uniform k) (P ++ [s])

theorem Front.prefixes {G : Graph α} {tr : List α} {k : Nat} {X O : List (Step α) → Prop} (F : Front G tr k X O) (P Q : List (Step α))
    (h : X (P ++ Q)) : X P := by
  induction Q using snocInduct with
  | nil => simpa using h
  | snoc Q s ih => exact ih (F.parent _ s (by simpa using h))

/-- a path that completes a path -/
structure Compl (G : Graph α) (tr : List α) (k d : Nat) (P Q : List (Step α)) : Prop where
  ok : Ok G (dest .start P) Q
  fin : dest (dest .start P) Q = .fin
  all : cons P ++ cons Q = tr
  cost : gcost G (Costs.uniform k) P + gcost G (Costs.uniform k) Q ≤ d

theorem tag_true {s : Step α} {a : α} (h : s.tag = some (a, true)) : s = .sync a := by
  cases s <;> simp [Step.tag] at h; rw [h]

theorem tag_false {s : Step α} {a : α} (h : s.tag = some (a, false)) : s = .log a := by
  cases s <;> simp [Step.tag] at h; rw [h]

theorem split_sync (P : List (Step α)) (a : α) (t1 t2 : List (α × Bool)) (h : tags P = t1 ++ (a, true) :: t2) :
    ∃ A B, P = A ++ .sync a :: B ∧ tags A = t1 := by
  obtain ⟨A, B, hP, hA, hB⟩ := split_tags P t1 _ h
  obtain ⟨A', s, B', hP', hs, hA', _⟩ := split_first B _ _ hB
  rw [tag_true hs] at hP'
  exact ⟨A ++ A', B', by rw [hP, hP']; simp, by rw [tags_append, hA, hA']; simp⟩

theorem gcost_cons (G : Graph α) (cs : Costs α) (s : Step α) (P : List (Step α)) : gcost G cs (s :: P) = s.gcost G cs + gcost G cs P := by
  simp [gcost]

/-- the domination argument -/
theorem dom {G : Graph α} {tr : List α} {k d : Nat} {X O : List (Step α) → Prop} (F : Front G tr k X O)
    (hmin : ∀ Q, Ok G .start Q → dest .start Q = .fin → cons Q = tr → d ≤ gcost G (Costs.uniform k) Q)
    (Y Q : List (Step α)) (hQ : Compl G tr k d Y Q)
    (hY : O Y ∨ ∃ C, X C ∧ dest .start C = dest .start Y ∧ (cons Y).length ≤ (cons C).length ∧
      gcost G (Costs.uniform k) C ≤ gcost G (Costs.uniform k) Y) :
    (∃ P, O P ∧ gcost G (Costs.uniform k) P ≤ d) ∨
      ∃ C Q', X C ∧ Compl G tr k d C Q' ∧ ((cons Y).length < (cons C).length ∨ (cons C).length = (cons Y).length ∧ Q'.length = Q.length) := by
  rcases hY with hY | ⟨C, hX, hd, hl, hc⟩
  · exact .inl ⟨Y, hY, by have := hQ.cost; omega⟩
  right
  have hpre : cons Y <+: cons C := by
    refine List.prefix_of_prefix_length_le (l₃ := tr) ?_ (F.pre C hX) hl
    rw [← hQ.all]; exact List.prefix_append ..
  obtain ⟨u, hu⟩ := hpre
  obtain ⟨v, hv⟩ := F.pre C hX
  have hQc : cons Q = u ++ v := by
    have := hQ.all
    rw [← hv, ← hu, List.append_assoc] at this
    exact List.append_cancel_left this
  by_cases hu0 : u = []
  · have h1 : cons C = cons Y := by rw [← hu, hu0]; simp
    refine ⟨C, Q, hX, ⟨by rw [hd]; exact hQ.ok, by rw [hd]; exact hQ.fin, by rw [h1]; exact hQ.all, by have := hQ.cost; omega⟩, .inr ⟨by rw [h1], rfl⟩⟩
  obtain ⟨Q1, Q2, hQe, hQ1, hQ2⟩ := split_cons Q u v hQc
  obtain ⟨P1, P2, hCe, hP1, hP2⟩ := split_cons C (cons Y) u hu.symm
  have hokC := F.ok C hX
  have hokQ := hQ.ok
  rw [hCe, ok_append] at hokC
  rw [hQe, ok_append] at hokQ
  have hcost := hQ.cost
  have hcQ : gcost G (Costs.uniform k) Q = gcost G (Costs.uniform k) Q1 + gcost G (Costs.uniform k) Q2 := by rw [hQe, gcost_append]
  have hcC : gcost G (Costs.uniform k) C = gcost G (Costs.uniform k) P1 + gcost G (Costs.uniform k) P2 := by rw [hCe, gcost_append]
  have hfin := hQ.fin
  rw [hQe, dest_append] at hfin
  rcases common_or G k (tags P2) (tags Q1) (by rw [← cons, ← cons, hP2, hQ1]) (sync_inModel G _ P2 hokC.2) (sync_inModel G _ Q1 hokQ.1) with
    ⟨a, t1, t2, u1, u2, ht, hu', htu⟩ | ⟨h1, h2⟩
  · obtain ⟨A, B, hA, hA1⟩ := split_sync P2 a t1 t2 ht
    obtain ⟨A', B', hA', hA1'⟩ := split_sync Q1 a u1 u2 hu'
    have hdA : ∀ n : Node α, ∀ L : List (Step α), dest n (L ++ [.sync a]) = .act a := by intro n L; rw [dest_append]; rfl
    have hsame : cons A = cons A' := by rw [cons, cons, hA1, hA1', htu]
    have hok1 := hokQ.1
    rw [hA', ok_append] at hok1
    have hok2 := hok1.2.2
    have hdQ1 : dest (dest .start Y) Q1 = dest (.act a) B' := by rw [hA', dest_append]; rfl
    refine ⟨P1 ++ A ++ [.sync a], B' ++ Q2, ?_, ⟨?_, ?_, ?_, ?_⟩, .inl ?_⟩
    · refine F.prefixes _ B ?_
      have : P1 ++ A ++ [Step.sync a] ++ B = C := by rw [hCe, hA]; simp
      rw [this]; exact hX
    · rw [hdA, ok_append]
      refine ⟨hok2, ?_⟩
      rw [← hdQ1]; exact hokQ.2
    · rw [hdA, dest_append, ← hdQ1]; exact hfin
    · have hsc : cons [Step.sync a] = [a] := rfl
      have h3 : cons Q1 = cons A ++ [a] ++ cons B' := by
        rw [hA', cons_append, hsame]
        show cons A' ++ cons ([Step.sync a] ++ B') = _
        rw [cons_append]; simp [hsc]
      have h4 := hQ.all
      rw [hQe, cons_append, h3] at h4
      rw [cons_append, cons_append, hP1, cons_append, hsc, ← h4]; simp
    · have h3 : gcost G (Costs.uniform k) Q1 ≥ gcost G (Costs.uniform k) B' := by
        rw [hA', gcost_append, gcost_cons]; omega
      have h4 : gcost G (Costs.uniform k) P2 ≥ gcost G (Costs.uniform k) (A ++ [.sync a]) := by
        rw [hA, gcost_append, gcost_append, gcost_cons, gcost_cons]; simp [gcost]
      have h5 : gcost G (Costs.uniform k) (P1 ++ A ++ [.sync a]) = gcost G (Costs.uniform k) P1 + gcost G (Costs.uniform k) (A ++ [.sync a]) := by
        rw [List.append_assoc, gcost_append]
      rw [h5, gcost_append G _ B' Q2]; omega
    · have hsc : cons [Step.sync a] = [a] := rfl
      rw [cons_append, cons_append, hP1, hsc]; simp only [List.length_append, List.length_singleton]; omega
  · have e1 := uncAll_cost G k P2
    have e2 := uncAll_cost G k Q1
    have hdC : dest (dest .start P1) P2 = dest .start Y := by rw [← hd, hCe, dest_append]
    have hm := hmin (P1 ++ uncAll P2 ++ Q) (by
        rw [ok_append, ok_append, dest_append, uncAll_dest, hdC]
        exact ⟨⟨hokC.1, uncAll_ok G _ _ hokC.2⟩, hQ.ok⟩) (by
        rw [dest_append, dest_append, uncAll_dest, hdC]; exact hQ.fin) (by
        rw [cons_append, cons_append, uncAll_cons, hP1]; simpa using hQ.all)
    rw [gcost_append, gcost_append] at hm
    refine ⟨C, uncAll Q1 ++ Q2, hX, ⟨?_, ?_, ?_, ?_⟩, .inl ?_⟩
    · rw [hd, ok_append, uncAll_dest]; exact ⟨uncAll_ok G _ _ hokQ.1, hokQ.2⟩
    · rw [hd, dest_append, uncAll_dest]; exact hfin
    · rw [cons_append, uncAll_cons, hQ2]; simpa using hv
    · rw [gcost_append]; omega
    · rw [← hu]
      have : u.length ≠ 0 := fun h => hu0 (List.length_eq_zero_iff.1 h)
      simp; omega

theorem ok_fin (G : Graph α) (P : List (Step α)) (h : Ok G .fin P) : ∀ s ∈ P, ∃ a, s = .log a := by
  induction P with
  | nil => intro s hs; cases hs
  | cons s P ih =>
    intro x hx
    have h1 := h.1
    cases s with
    | sync a => simp [Step.valid, Graph.out] at h1
    | model a => simp [Step.valid, Graph.out] at h1
    | fin => simp [Step.valid, Graph.out] at h1
    | log a =>
      rcases List.mem_cons.1 hx with rfl | hx
      · exact ⟨a, rfl⟩
      · exact ih h.2 x hx

/-- the part of a path before its last model moves -/
theorem strip (P : List (Step α)) :
    ∃ P0 M, P = P0 ++ M ∧ lastModel P0 = false ∧ tags M = [] := by
  induction P using snocInduct with
  | nil => exact ⟨[], [], rfl, rfl, rfl⟩
  | snoc P s ih =>
    cases s with
    | model b =>
      obtain ⟨P0, M, h1, h2, h3⟩ := ih
      exact ⟨P0, M ++ [.model b], by rw [h1]; simp, h2, by rw [tags_append, h3]; rfl⟩
    | sync b => exact ⟨P ++ [.sync b], [], by simp, by simp [lastModel], rfl⟩
    | fin => exact ⟨P ++ [.fin], [], by simp, by simp [lastModel], rfl⟩
    | log b => exact ⟨P ++ [.log b], [], by simp, by simp [lastModel], rfl⟩

theorem progress {G : Graph α} {tr : List α} {k d : Nat} {X O : List (Step α) → Prop} (F : Front G tr k X O)
    (hmin : ∀ Q, Ok G .start Q → dest .start Q = .fin → cons Q = tr → d ≤ gcost G (Costs.uniform k) Q) (N : Nat) :
    ∀ M P Q, X P → Compl G tr k d P Q → tr.length ≤ (cons P).length + N → Q.length ≤ M →
      ∃ P, O P ∧ gcost G (Costs.uniform k) P ≤ d := by
  induction N using Nat.strongRecOn with
  | _ N ihN =>
  intro M
  induction M with
  | zero =>
    intro P Q hX hQ hN hM
    have : Q = [] := List.length_eq_zero_iff.1 (by omega)
    subst this
    refine absurd ⟨hQ.fin, ?_⟩ (F.nt P hX)
    have := hQ.all
    simpa [cons, tags] using this
  | succ M ihM =>
    intro P Q hX hQ hN hM
    have use : ∀ Y R, Compl G tr k d Y R →
        (O Y ∨ ∃ C, X C ∧ dest .start C = dest .start Y ∧ (cons Y).length ≤ (cons C).length ∧
          gcost G (Costs.uniform k) C ≤ gcost G (Costs.uniform k) Y) →
        ((cons P).length < (cons Y).length ∨ (cons Y).length = (cons P).length ∧ R.length < Q.length) →
        ∃ P, O P ∧ gcost G (Costs.uniform k) P ≤ d := by
      intro Y R hR hY hlt
      rcases dom F hmin Y R hR hY with h | ⟨C, Q', hXC, hC, hm⟩
      · exact h
      · have hcl : (cons C).length ≤ tr.length := (F.pre C hXC).length_le
        by_cases hgt : (cons P).length < (cons C).length
        · exact ihN (tr.length - (cons C).length) (by omega) Q'.length C Q' hXC hC (by omega) (Nat.le_refl _)
        · exact ihM C Q' hXC hC (by omega) (by omega)
    have hlen : (cons P).length + (cons Q).length = tr.length := by rw [← hQ.all]; simp
    cases hcq : cons Q with
    | nil =>
      have hall : cons P = tr := by have := hQ.all; rw [hcq] at this; simpa using this
      have hnone : tr[(cons P).length]? = none := by rw [hall]; simp
      cases Q with
      | nil => exact absurd ⟨hQ.fin, hall⟩ (F.nt P hX)
      | cons s Q' =>
        have hcs : cons [s] = [] ∧ cons Q' = [] := by
          have h1 : cons (s :: Q') = cons [s] ++ cons Q' := cons_append [s] Q'
          rw [h1] at hcq; simpa using hcq
        have hA : Allowed G tr P s := by
          cases s with
          | sync a => exact absurd hcs.1 (by simp [cons, tags, Step.tag])
          | log a => exact absurd hcs.1 (by simp [cons, tags, Step.tag])
          | model b => exact ⟨hQ.ok.1, fun a ha => by rw [hnone] at ha; cases ha⟩
          | fin => exact ⟨hQ.ok.1, fun a ha => by rw [hnone] at ha; cases ha⟩
        have hde : dest .start (P ++ [s]) = s.next (dest .start P) := by rw [dest_append]; rfl
        refine use (P ++ [s]) Q' ⟨by rw [hde]; exact hQ.ok.2, by rw [hde]; exact hQ.fin, by rw [cons_append, hcs.1, hcs.2]; simpa using hall, ?_⟩ (F.exp P s hX hA) (.inr ⟨by rw [cons_append, hcs.1]; simp, by simp⟩)
        have := hQ.cost
        rw [gcost_cons] at this
        rw [gcost_append, gcost_cons]; simp [gcost] at *; omega
    | cons a rest =>
      have hsome : tr[(cons P).length]? = some a := by rw [← hQ.all, hcq]; simp
      obtain ⟨b, t, ht⟩ : ∃ b t, tags Q = (a, b) :: t := by
        cases htq : tags Q with
        | nil => rw [cons, htq] at hcq; cases hcq
        | cons x t =>
          rw [cons, htq] at hcq
          simp at hcq
          exact ⟨x.2, t, by rw [← hcq.1]⟩
      obtain ⟨A, s, B, hQe, hs, hA0, hB⟩ := split_first Q (a, b) t ht
      have hcA : cons A = [] := by rw [cons, hA0]; rfl
      have hrest : cons B = rest := by
        have h1 : tags Q = (a, b) :: tags B := by
          rw [hQe]
          show tags (A ++ ([s] ++ B)) = _
          rw [tags_append, tags_append, hA0]; simp [tags, hs]
        rw [cons, h1] at hcq
        simp at hcq; exact hcq
      have hok := hQ.ok
      rw [hQe, ok_append] at hok
      have hfin := hQ.fin
      rw [hQe, dest_append] at hfin
      have hall := hQ.all
      rw [hcq, ← hrest] at hall
      have hcost := hQ.cost
      rw [hQe, gcost_append, gcost_cons] at hcost
      cases b with
      | false =>
        have hsl := tag_false hs
        subst hsl
        obtain ⟨P0, Ms, hP, hlm, hMs⟩ := strip P
        have hcM : cons Ms = [] := by rw [cons, hMs]; rfl
        have hcP : cons P0 = cons P := by rw [hP, cons_append, hcM]; simp
        have hX0 : X P0 := F.prefixes P0 Ms (by rw [← hP]; exact hX)
        have hokP := F.ok P hX
        rw [hP, ok_append] at hokP
        have hdP : dest (dest .start P0) Ms = dest .start P := by rw [hP, dest_append]
        have hdY : dest .start (P0 ++ [.log a]) = dest .start P0 := by rw [dest_append]; rfl
        have hcl : cons [Step.log a] = [a] := rfl
        refine use (P0 ++ [.log a]) (Ms ++ (A ++ B)) ⟨?_, ?_, ?_, ?_⟩ (F.exp P0 (.log a) hX0 ⟨by rw [hcP]; exact hsome, hlm⟩) (.inl ?_)
        · rw [hdY, ok_append, hdP, ok_append]
          exact ⟨hokP.2, hok.1, hok.2.2⟩
        · rw [hdY, dest_append, hdP, dest_append]; exact hfin
        · rw [cons_append, cons_append, cons_append, hcM, hcA, hcP, hcl]; simpa using hall
        · have h1 : gcost G (Costs.uniform k) P = gcost G (Costs.uniform k) P0 + gcost G (Costs.uniform k) Ms := by rw [hP, gcost_append]
          rw [gcost_append, gcost_append, gcost_append, gcost_cons]
          simp [gcost] at *; omega
        · rw [cons_append, hcP, hcl]; simp
      | true =>
        have hss := tag_true hs
        subst hss
        have hmod : G.inModel a = true := out_inModel G _ a hok.2.1
        by_cases hcan : Node.act a ∈ G.out (dest .start P)
        · have hdY : dest .start (P ++ [.sync a]) = .act a := by rw [dest_append]; rfl
          have hcl : cons [Step.sync a] = [a] := rfl
          refine use (P ++ [.sync a]) B ⟨by rw [hdY]; exact hok.2.2, by rw [hdY]; exact hfin, by rw [cons_append, hcl]; simpa using hall, ?_⟩ (F.exp P (.sync a) hX ⟨hsome, hcan⟩) (.inl (by rw [cons_append, hcl]; simp))
          rw [gcost_append, gcost_cons]; simp [gcost] at *; omega
        · cases A with
          | nil => exact absurd hok.2.1 hcan
          | cons s0 A' =>
            have htA : s0.tag = none := by
              cases h0 : s0.tag with
              | none => rfl
              | some y => simp [tags, h0] at hA0
            cases s0 with
            | sync _ => simp [Step.tag] at htA
            | log _ => simp [Step.tag] at htA
            | fin =>
              exfalso
              have h2 := (ok_append G (dest .start P) (.fin :: A') (.sync a :: B)).2 hok
              have h3 : Ok G .fin (A' ++ .sync a :: B) := h2.2
              obtain ⟨x, hx⟩ := ok_fin G _ h3 (.sync a) (by simp)
              cases hx
            | model c =>
              have hdY : dest .start (P ++ [.model c]) = .act c := by rw [dest_append]; rfl
              have hcl : cons [Step.model c] = ([] : List α) := rfl
              have hcA' : cons A' = [] := by
                have h1 : cons (Step.model c :: A') = cons [Step.model c] ++ cons A' := cons_append [_] A'
                rw [h1, hcl] at hcA; simpa using hcA
              refine use (P ++ [.model c]) (A' ++ .sync a :: B) ⟨?_, ?_, ?_, ?_⟩ (F.exp P (.model c) hX ⟨hok.1.1, fun x hx => ?_⟩) (.inr ⟨by rw [cons_append, hcl]; simp, by rw [hQe]; simp⟩)
              · rw [hdY, ok_append]; exact ⟨hok.1.2, hok.2⟩
              · rw [hdY, dest_append]; exact hfin
              · rw [cons_append, hcl, cons_append, hcA']
                have h1 : cons (Step.sync a :: B) = [a] ++ cons B := cons_append [_] B
                rw [h1]; simpa using hall
              · rw [gcost_cons] at hcost
                rw [gcost_append, gcost_append, gcost_cons, gcost_cons]; simp [gcost] at *; omega
              · rw [hsome] at hx
                cases hx
                exact ⟨hmod, hcan⟩

end Verif.DfgAlign
