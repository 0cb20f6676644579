import Verif.DfgAlign.Spec
import Verif.Common.ListX
/-
C52: paths of the search (sequences of moves from the start node) and operations on them.
-/
set_option linter.unusedSectionVars false
namespace Verif.DfgAlign
variable {α : Type} [DecidableEq α]

/-- the moves of the search; `fin` is the silent move to the end node -/
inductive Step (α : Type)
  | sync (a : α)
  | model (a : α)
  | fin
  | log (a : α)

def Step.next (n : Node α) : Step α → Node α
  | .sync a => .act a
  | .model a => .act a
  | .fin => .fin
  | .log _ => n

def Step.valid (G : Graph α) (n : Node α) : Step α → Prop
  | .sync a => Node.act a ∈ G.out n
  | .model a => Node.act a ∈ G.out n
  | .fin => Node.fin ∈ G.out n
  | .log _ => True

/-- the event that a step consumes, with a mark for synchronous moves -/
def Step.tag : Step α → Option (α × Bool)
  | .sync a => some (a, true)
  | .log a => some (a, false)
  | _ => none

def Step.gcost (G : Graph α) (cs : Costs α) : Step α → Nat
  | .sync a => cs.sync a
  | .model a => cs.model a
  | .fin => 0
  | .log a => ilog G cs a

def Step.rcost (cs : Costs α) : Step α → Nat
  | .sync a => cs.sync a
  | .model a => cs.model a
  | .fin => 0
  | .log a => cs.log a

def dest (n : Node α) (P : List (Step α)) : Node α := P.foldl Step.next n

def Ok (G : Graph α) : Node α → List (Step α) → Prop
  | _, [] => True
  | n, s :: P => s.valid G n ∧ Ok G (s.next n) P

def tags (P : List (Step α)) : List (α × Bool) := P.filterMap Step.tag
def cons (P : List (Step α)) : List α := (tags P).map Prod.fst
def gcost (G : Graph α) (cs : Costs α) (P : List (Step α)) : Nat := (P.map (Step.gcost G cs)).sum
def rcost (cs : Costs α) (P : List (Step α)) : Nat := (P.map (Step.rcost cs)).sum

theorem dest_append (n : Node α) (P Q : List (Step α)) : dest n (P ++ Q) = dest (dest n P) Q := List.foldl_append ..

theorem ok_append (G : Graph α) (n : Node α) (P Q : List (Step α)) : Ok G n (P ++ Q) ↔ Ok G n P ∧ Ok G (dest n P) Q := by
  induction P generalizing n with
  | nil => simp [Ok, dest]
  | cons s P ih => simp [Ok, ih, dest, and_assoc]

theorem tags_append (P Q : List (Step α)) : tags (P ++ Q) = tags P ++ tags Q := List.filterMap_append ..
theorem cons_append (P Q : List (Step α)) : cons (P ++ Q) = cons P ++ cons Q := by simp [cons, tags_append]
theorem gcost_append (G : Graph α) (cs : Costs α) (P Q : List (Step α)) : gcost G cs (P ++ Q) = gcost G cs P + gcost G cs Q := by
  simp [gcost]
theorem rcost_append (cs : Costs α) (P Q : List (Step α)) : rcost cs (P ++ Q) = rcost cs P + rcost cs Q := by
  simp [rcost]

/-- without its event: a synchronous move becomes a model move, a log move disappears -/
def unc : Step α → List (Step α)
  | .sync a => [.model a]
  | .log _ => []
  | s => [s]

def uncAll (P : List (Step α)) : List (Step α) := P.flatMap unc

theorem uncAll_dest (n : Node α) (P : List (Step α)) : dest n (uncAll P) = dest n P := by
  induction P generalizing n with
  | nil => rfl
  | cons s P ih =>
    have h : uncAll (s :: P) = unc s ++ uncAll P := rfl
    rw [h, dest_append]
    have h2 : dest n (s :: P) = dest (s.next n) P := rfl
    rw [h2, ← ih]
    cases s <;> rfl

theorem uncAll_ok (G : Graph α) (n : Node α) (P : List (Step α)) (h : Ok G n P) : Ok G n (uncAll P) := by
  induction P generalizing n with
  | nil => exact h
  | cons s P ih =>
    have h1 : uncAll (s :: P) = unc s ++ uncAll P := rfl
    rw [h1, ok_append]
    refine ⟨?_, ?_⟩
    · cases s <;> simp [unc, Ok] <;> exact h.1
    · have h2 : dest n (unc s) = s.next n := by cases s <;> rfl
      rw [h2]; exact ih _ h.2

theorem uncAll_tags (P : List (Step α)) : tags (uncAll P) = [] := by
  induction P with
  | nil => rfl
  | cons s P ih =>
    have h1 : uncAll (s :: P) = unc s ++ uncAll P := rfl
    rw [h1, tags_append, ih]
    cases s <;> rfl

theorem uncAll_cons (P : List (Step α)) : cons (uncAll P) = [] := by simp [cons, uncAll_tags]

/-- costs of the synchronous events, if they became model moves -/
def sy (k : Nat) (t : List (α × Bool)) : Nat := (t.map fun x => if x.2 then k else 0).sum
/-- costs of the log moves -/
def lo (G : Graph α) (k : Nat) (t : List (α × Bool)) : Nat :=
  (t.map fun x => if x.2 then 0 else ilog G (Costs.uniform k) x.1).sum

theorem uncAll_cost (G : Graph α) (k : Nat) (P : List (Step α)) :
    gcost G (Costs.uniform k) (uncAll P) + lo G k (tags P) = gcost G (Costs.uniform k) P + sy k (tags P) := by
  induction P with
  | nil => rfl
  | cons s P ih =>
    have h1 : uncAll (s :: P) = unc s ++ uncAll P := rfl
    have h2 : s :: P = [s] ++ P := rfl
    rw [h1, gcost_append, h2, tags_append, gcost_append]
    have h3 : ∀ a b : List (α × Bool), lo G k (a ++ b) = lo G k a + lo G k b := by intro a b; simp [lo]
    have h4 : ∀ a b : List (α × Bool), sy k (a ++ b) = sy k a + sy k b := by intro a b; simp [sy]
    rw [h3, h4]
    have h5 : gcost G (Costs.uniform k) (unc s) + lo G k (tags [s]) = gcost G (Costs.uniform k) [s] + sy k (tags [s]) := by
      cases s <;> simp [unc, gcost, lo, sy, tags, Step.tag, Step.gcost, Costs.uniform] <;> rfl
    omega

/-- splitting a path at an event -/
theorem split_tags (P : List (Step α)) (t1 t2 : List (α × Bool)) (h : tags P = t1 ++ t2) :
    ∃ A B, P = A ++ B ∧ tags A = t1 ∧ tags B = t2 := by
  induction P generalizing t1 with
  | nil =>
    have : t1 = [] ∧ t2 = [] := by simpa [tags] using h
    exact ⟨[], [], rfl, this.1.symm ▸ rfl, this.2.symm ▸ rfl⟩
  | cons s P ih =>
    cases t1 with
    | nil => exact ⟨[], s :: P, rfl, rfl, by simpa using h⟩
    | cons x t1 =>
      cases hs : s.tag with
      | none =>
        have h' : tags P = (x :: t1) ++ t2 := by simpa [tags, hs] using h
        obtain ⟨A, B, hP, hA, hB⟩ := ih _ h'
        exact ⟨s :: A, B, by rw [hP]; rfl, by simp [tags, hs]; exact hA, hB⟩
      | some y =>
        have h' : y = x ∧ tags P = t1 ++ t2 := by simpa [tags, hs] using h
        obtain ⟨A, B, hP, hA, hB⟩ := ih _ h'.2
        refine ⟨s :: A, B, by rw [hP]; rfl, ?_, hB⟩
        have : tags (s :: A) = y :: tags A := by simp [tags, hs]
        rw [this, hA, h'.1]

theorem split_first (P : List (Step α)) (x : α × Bool) (t : List (α × Bool)) (h : tags P = x :: t) :
    ∃ A s B, P = A ++ s :: B ∧ s.tag = some x ∧ tags A = [] ∧ tags B = t := by
  induction P with
  | nil => simp [tags] at h
  | cons s P ih =>
    cases hs : s.tag with
    | none =>
      have h' : tags P = x :: t := by simpa [tags, hs] using h
      obtain ⟨A, s', B, hP, hx, hA, hB⟩ := ih h'
      exact ⟨s :: A, s', B, by rw [hP]; rfl, hx, by simp [tags, hs]; exact fun a ha => by simpa [tags] using (by simpa [tags] using hA : ∀ a ∈ A, a.tag = none) a ha, hB⟩
    | some y =>
      have h' : y = x ∧ tags P = t := by simpa [tags, hs] using h
      exact ⟨[], s, P, rfl, by rw [hs, h'.1], rfl, h'.2⟩

theorem split_cons (P : List (Step α)) (u v : List α) (h : cons P = u ++ v) : ∃ A B, P = A ++ B ∧ cons A = u ∧ cons B = v := by
  rw [cons, List.map_eq_append_iff] at h
  obtain ⟨t1, t2, ht, h1, h2⟩ := h
  obtain ⟨A, B, hP, hA, hB⟩ := split_tags P t1 t2 ht
  exact ⟨A, B, hP, by rw [cons, hA, h1], by rw [cons, hB, h2]⟩

/-- synchronous events of a valid path belong to the model -/
theorem out_inModel (G : Graph α) (n : Node α) (a : α) (h : Node.act a ∈ G.out n) : G.inModel a = true := by
  cases n with
  | start => simp [Graph.out] at h; simp [Graph.inModel, h]
  | fin => simp [Graph.out] at h
  | act b =>
    simp only [Graph.out, List.mem_append, List.mem_map, List.mem_filter] at h
    rcases h with ⟨e, ⟨he, _⟩, h2⟩ | h
    · have : e.2 = a := by simpa using h2
      have h3 : a ∈ G.dfg.map Prod.snd := by rw [← this]; exact List.mem_map_of_mem he
      simp only [Graph.inModel, h3]; simp
    · split at h <;> simp at h

theorem sync_inModel (G : Graph α) (n : Node α) (P : List (Step α)) (h : Ok G n P) : ∀ a, (a, true) ∈ tags P → G.inModel a = true := by
  induction P generalizing n with
  | nil => intro a ha; simp [tags] at ha
  | cons s P ih =>
    intro a ha
    have h2 : tags (s :: P) = tags [s] ++ tags P := tags_append [s] P
    rw [h2, List.mem_append] at ha
    rcases ha with ha | ha
    · cases s with
      | sync b =>
        have hb : a = b := by simpa [tags, Step.tag] using ha
        rw [hb]; exact out_inModel G n b h.1
      | model b => simp [tags, Step.tag] at ha
      | fin => simp [tags, Step.tag] at ha
      | log b => simp [tags, Step.tag] at ha
    · exact ih _ h.2 a ha

/-- two ways to treat the same events: they agree on a synchronous event, or each synchronous event of one is a log move of the other -/
theorem common_or (G : Graph α) (k : Nat) (t u : List (α × Bool)) (h : t.map Prod.fst = u.map Prod.fst)
    (ht : ∀ a, (a, true) ∈ t → G.inModel a = true) (hu : ∀ a, (a, true) ∈ u → G.inModel a = true) :
    (∃ a t1 t2 u1 u2, t = t1 ++ (a, true) :: t2 ∧ u = u1 ++ (a, true) :: u2 ∧ t1.map Prod.fst = u1.map Prod.fst) ∨
      (sy k t ≤ lo G k u ∧ sy k u ≤ lo G k t) := by
  induction t generalizing u with
  | nil =>
    have : u = [] := by simpa using h.symm
    rw [this]; exact .inr ⟨by simp [sy], by simp [sy]⟩
  | cons x t ih =>
    cases u with
    | nil => simp at h
    | cons y u =>
      simp only [List.map_cons, List.cons.injEq] at h
      rcases ih u h.2 (fun a ha => ht a (List.mem_cons_of_mem _ ha)) (fun a ha => hu a (List.mem_cons_of_mem _ ha)) with
        ⟨a, t1, t2, u1, u2, h1, h2, h3⟩ | ⟨h1, h2⟩
      · exact .inl ⟨a, x :: t1, t2, y :: u1, u2, by rw [h1]; rfl, by rw [h2]; rfl, by simp [h.1, h3]⟩
      · obtain ⟨a, bx⟩ := x
        obtain ⟨b, bt⟩ := y
        have hab : a = b := h.1
        subst hab
        cases bx <;> cases bt
        · right; simp [sy, lo] at *; omega
        · have := hu a (List.mem_cons_self ..)
          right
          simp [sy, lo, ilog, this, Costs.uniform] at *
          omega
        · have := ht a (List.mem_cons_self ..)
          right
          simp [sy, lo, ilog, this, Costs.uniform] at *
          omega
        · exact .inl ⟨a, [], t, [], u, rfl, rfl, rfl⟩

end Verif.DfgAlign
