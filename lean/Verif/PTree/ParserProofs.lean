import Verif.PTree.Parser
/-
Proof of the round trip of printing and parsing.
-/
namespace Verif.PTP
open Verif

/-- no carriage return, no newline -/
def Plain (s : Str) : Prop := ∀ c ∈ s, c ≠ '\r' ∧ c ≠ '\n'
/-- the last character (if any) is not white space -/
def EndOk (s : Str) : Prop := ∀ c, s.getLast? = some c → ws c = false

theorem strip_space (s : Str) : strip (' ' :: s) = strip s := by
  have : ws ' ' = true := by decide
  unfold strip; rw [List.dropWhile_cons, if_pos this]

theorem strip_tight (c : Char) (s : Str) (hc : ws c = false) (he : EndOk (c :: s)) : strip (c :: s) = c :: s := by
  unfold strip
  rw [List.dropWhile_cons, if_neg (by simp [hc])]
  have hne : (c :: s).reverse ≠ [] := by simp
  cases hr : (c :: s).reverse with
  | nil => simp at hr
  | cons e r =>
    have : ws e = false := by
      apply he
      have := congrArg List.reverse hr
      rw [List.reverse_reverse] at this
      rw [this, List.reverse_cons, List.getLast?_append]; simp
    rw [List.dropWhile_cons, if_neg (by simp [this]), ← hr, List.reverse_reverse]

theorem clean_eq {s s' : Str} (h : strip s = s') (hp : Plain s') : clean s = s' := by
  unfold clean
  rw [h]
  rw [List.filter_eq_self.2 (fun c hc => by simp [(hp c hc).1])]
  conv => rhs; rw [← List.map_id s']
  apply List.map_congr_left
  intro c hc
  simp [(hp c hc).2]

theorem EndOk.append {s t : Str} (hs : EndOk s) (ht : EndOk t) : EndOk (s ++ t) := by
  intro c hc
  rw [List.getLast?_append] at hc
  cases h : t.getLast? with
  | none => rw [h] at hc; exact hs c (by simpa using hc)
  | some e => rw [h] at hc; exact ht c (by simpa [h] using hc)

theorem Plain.append {s t : Str} (hs : Plain s) (ht : Plain t) : Plain (s ++ t) := by
  intro c hc
  rcases List.mem_append.1 hc with h | h
  · exact hs c h
  · exact ht c h

/-- good labels everywhere in the tree -/
inductive GoodTree : PT Str → Prop
  | leaf (l : Option Str) : (∀ x, l = some x → GoodLabel x) → GoodTree (.leaf l)
  | node (op : Op) (cs : List (PT Str)) : cs ≠ [] → (∀ c ∈ cs, GoodTree c) → GoodTree (.node op cs)

theorem reprL_cons {c : PT Str} {cs : List (PT Str)} (h : cs ≠ []) :
    reprL (c :: cs) = repr c ++ [',', ' '] ++ reprL cs := by
  cases cs with
  | nil => exact absurd rfl h
  | cons d ds => simp [reprL]

theorem plain_repr (t : PT Str) (h : GoodTree t) : Plain (repr t) := by
  induction t using PT.induct with
  | leaf l =>
    cases l with
    | none => simp only [repr]; intro c hc; revert c; decide
    | some l =>
      cases h with
      | leaf _ h =>
        intro c hc
        simp only [repr, List.mem_cons, List.mem_append, List.not_mem_nil, or_false] at hc
        rcases hc with rfl | hc | rfl
        · decide
        · exact (h l rfl c hc).2
        · decide
  | node op cs ih =>
    cases h with
    | node _ _ hne hg =>
      simp only [repr]
      have hL : ∀ ds : List (PT Str), (∀ c ∈ ds, c ∈ cs) → Plain (reprL ds) := by
        intro ds
        induction ds with
        | nil => intro _; simp [reprL, Plain]
        | cons d ds ih2 =>
          intro hds
          have hd := ih d (hds d (by simp)) (hg d (hds d (by simp)))
          by_cases he : ds = []
          · subst he; simpa [reprL] using hd
          · rw [reprL_cons he]
            refine (hd.append ?_).append (ih2 fun c hc => hds c (by simp [hc]))
            intro c hc; revert c; decide
      refine ((Plain.append ?_ ?_).append (hL cs fun c hc => hc)).append ?_
      · cases op <;> (intro c hc; revert c; decide)
      · intro c hc; revert c; decide
      · intro c hc; revert c; decide

theorem endOk_repr (t : PT Str) : EndOk (repr t) := by
  cases t with
  | leaf l =>
    cases l with
    | none => intro c hc; simp [repr] at hc; subst hc; decide
    | some l => intro c hc; simp only [repr] at hc; rw [← List.cons_append, List.getLast?_append] at hc; simp at hc; subst hc; decide
  | node op cs =>
    intro c hc
    simp only [repr] at hc
    rw [List.getLast?_append] at hc; simp at hc; subst hc; decide

/-- the representation starts with a character that is no white space -/
theorem repr_head (t : PT Str) : ∃ c s, repr t = c :: s ∧ ws c = false := by
  cases t with
  | leaf l =>
    cases l with
    | none => exact ⟨_, _, by simp [repr]; exact ⟨rfl, rfl⟩, by decide⟩
    | some l => exact ⟨_, _, by simp [repr]; exact ⟨rfl, rfl⟩, by decide⟩
  | node op cs =>
    cases op <;> exact ⟨_, _, by simp [repr, opStr]; exact ⟨rfl, rfl⟩, by decide⟩

theorem clean_repr (t : PT Str) (h : GoodTree t) (rest : Str) (hp : Plain rest) (he : EndOk rest) :
    clean (repr t ++ rest) = repr t ++ rest := by
  obtain ⟨c, s, h1, h2⟩ := repr_head t
  refine clean_eq ?_ ((plain_repr t h).append hp)
  have h3 := (endOk_repr t).append he
  rw [h1] at h3 ⊢
  exact strip_tight c _ h2 h3

theorem upToQuote_append (l rest : Str) (h : ∀ c ∈ l, c ≠ '\'') : upToQuote (l ++ '\'' :: rest) = some (l, rest) := by
  induction l with
  | nil => simp [upToQuote]
  | cons c l ih =>
    simp only [List.cons_append, upToQuote]
    rw [if_neg (h c (by simp)), ih fun c hc => h c (by simp [hc])]
    rfl

/-- the tail of `parse_recursive` after a leaf (generic.py:302-306) -/
def cont (s : Str) (h : Heap) (dc : Cache) (d : Int) : Option Heap :=
  match strip (closeParens s d).1 with
  | [] => some h
  | _ :: r' => (parseRec r' h dc (closeParens s d).2).map Prod.snd

theorem parseRec_leaf {s0 : Str} {h : Heap} {dc : Cache} {d : Int} {l : Option Str} {r : Str} {h' : Heap}
    (h1 : opPrefix (clean s0) = none) (h2 : leafPrefix (clean s0) = some (l, r))
    (h3 : newNode h dc d ⟨none, l, []⟩ = some h') :
    parseRec s0 h dc d = (cont r h' dc d).map fun x => (h.length, x) := by
  rw [parseRec]
  unfold cont
  split
  · rename_i _ _ he; rw [h1] at he; simp at he
  · split
    · rename_i he; rw [h2] at he; simp at he
    · rename_i l' r' he
      rw [h2] at he; simp at he
      obtain ⟨rfl, rfl⟩ := he
      rw [h3]
      simp only
      split
      · rename_i he; simp [he]
      · rename_i he; simp [he]; rfl

theorem parseRec_op {s0 : Str} {h : Heap} {dc : Cache} {d : Int} {op : Op} {r r' : Str} {h' : Heap}
    (h1 : opPrefix (clean s0) = some (op, r)) (h2 : newNode h dc d ⟨some op, none, []⟩ = some h')
    (h3 : strip r = '(' :: r') :
    parseRec s0 h dc d =
      (parseRec r' h' (fun k => if k = d then some h.length else dc k) (d + 1)).map fun p => (h.length, p.2) := by
  rw [parseRec]
  split
  · rename_i op' r1 he
    rw [h1] at he; simp at he
    obtain ⟨rfl, rfl⟩ := he
    rw [h2]
    simp only
    split
    · rename_i r2 he; rw [h3] at he; simp at he; subst he; rfl
    · rename_i he; exact absurd h3 (he r')
  · rename_i he; rw [h1] at he; simp at he

/-- `parseRec` looks at its string only through `clean` -/
def body (s : Str) (h : Heap) (dc : Cache) (d : Int) : Option (Nat × Heap) :=
  match opPrefix s with
  | some (op, r) =>
    match newNode h dc d ⟨some op, none, []⟩ with
    | none => none
    | some h' =>
      match strip r with
      | '(' :: r' =>
        (parseRec r' h' (fun k => if k = d then some h.length else dc k) (d + 1)).map fun p => (h.length, p.2)
      | _ => none
  | none =>
    match leafPrefix s with
    | none => none
    | some (l, r) =>
      match newNode h dc d ⟨none, l, []⟩ with
      | none => none
      | some h' => (cont r h' dc d).map fun x => (h.length, x)

theorem parseRec_body (s0 : Str) (h : Heap) (dc : Cache) (d : Int) : parseRec s0 h dc d = body (clean s0) h dc d := by
  cases h1 : opPrefix (clean s0) with
  | some p =>
    obtain ⟨op, r⟩ := p
    rw [parseRec]; unfold body
    rw [h1]
    simp only
    split
    · rename_i he; rw [he]
    · rename_i he; rw [he]
      simp only
      generalize strip r = x
      split <;> simp_all
  | none =>
    cases h2 : leafPrefix (clean s0) with
    | none =>
      rw [parseRec]; unfold body; rw [h1]; simp only [h2]
      split
      · rfl
      · simp_all
    | some p =>
      obtain ⟨l, r⟩ := p
      cases h3 : newNode h dc d ⟨none, l, []⟩ with
      | some h' => rw [parseRec_leaf h1 h2 h3]; unfold body; rw [h1]; simp only [h2, h3]
      | none =>
        rw [parseRec]; unfold body; rw [h1]; simp only [h2, h3]
        split
        · rfl
        · simp_all

theorem parseRec_space (s : Str) (h : Heap) (dc : Cache) (d : Int) :
    parseRec (' ' :: s) h dc d = parseRec s h dc d := by
  have : clean (' ' :: s) = clean s := by unfold clean; rw [strip_space]
  rw [parseRec_body, parseRec_body, this]

theorem closeParens_close (s : Str) (d : Int) (he : EndOk s) : closeParens (' ' :: ')' :: s) d = closeParens s (d - 1) := by
  have h1 : strip (' ' :: ')' :: s) = ')' :: s := by
    rw [strip_space]
    refine strip_tight _ _ (by decide) ?_
    exact EndOk.append (s := [')']) (by intro c hc; simp at hc; subst hc; decide) he
  rw [closeParens]
  split
  · rename_i r hr; rw [h1] at hr; simp at hr; subst hr; rfl
  · rename_i hr; exact absurd h1 (hr s)

theorem cont_close (s : Str) (h : Heap) (dc : Cache) (d : Int) (he : EndOk s) :
    cont (' ' :: ')' :: s) h dc d = cont s h dc (d - 1) := by
  unfold cont
  rw [closeParens_close s d he]

theorem cont_comma (s : Str) (h : Heap) (dc : Cache) (d : Int) (he : EndOk s) :
    cont (',' :: ' ' :: s) h dc d = (parseRec s h dc d).map Prod.snd := by
  by_cases hs : s = []
  · subst hs
    have h1 : closeParens [',', ' '] d = ([',', ' '], d) := by
      rw [closeParens]; split
      · rename_i r hr; revert hr; have : strip [',', ' '] = [','] := by decide
        rw [this]; simp
      · rfl
    unfold cont
    rw [h1]
    have : strip [',', ' '] = [','] := by decide
    simp only [this]
  · have he' : EndOk (',' :: ' ' :: s) := by
      intro c hc
      have : (',' :: ' ' :: s).getLast? = s.getLast? := by
        cases s with
        | nil => exact absurd rfl hs
        | cons a s => simp [List.getLast?_cons_cons]
      exact he c (this ▸ hc)
    have hst := strip_tight ',' (' ' :: s) (by decide) he'
    have h1 : closeParens (',' :: ' ' :: s) d = (',' :: ' ' :: s, d) := by
      rw [closeParens]; split
      · rename_i r hr; rw [hst] at hr; simp at hr
      · rfl
    unfold cont
    rw [h1]
    simp only [hst]
    rw [parseRec_space]

mutual
/-- the objects created for a tree, the first at reference `i` -/
def layout (i : Nat) : PT Str → List HNode
  | .leaf l => [⟨none, l, []⟩]
  | .node op cs => ⟨some op, none, ids (i + 1) cs⟩ :: layoutL (i + 1) cs
def layoutL (i : Nat) : List (PT Str) → List HNode
  | [] => []
  | c :: cs => layout i c ++ layoutL (i + (layout i c).length) cs
/-- references of the children -/
def ids (i : Nat) : List (PT Str) → List Nat
  | [] => []
  | c :: cs => i :: ids (i + (layout i c).length) cs
end

/-- the heap after a new object at its end was attached to its parent -/
def att (h : Heap) (dc : Cache) (d : Int) : Heap :=
  if d = 0 then h
  else match dc (d - 1) with
    | none => h
    | some p => h.modify p fun x => { x with children := x.children ++ [h.length] }

/-- the parent exists -/
def ParOk (h : Heap) (dc : Cache) (d : Int) : Prop := d = 0 ∨ ∃ p, dc (d - 1) = some p ∧ p < h.length

theorem modify_append {α : Type} (l m : List α) (i : Nat) (f : α → α) (h : i < l.length) :
    (l ++ m).modify i f = l.modify i f ++ m := by
  apply List.ext_getElem?
  intro k
  rw [List.getElem?_modify]
  by_cases hk : k < l.length
  · rw [List.getElem?_append_left hk, List.getElem?_append_left (by simpa using hk), List.getElem?_modify]
  · rw [List.getElem?_append_right (by omega), List.getElem?_append_right (by simpa using hk)]
    have : i ≠ k := by omega
    simp [this]

theorem newNode_eq {h : Heap} {dc : Cache} {d : Int} (hp : ParOk h dc d) (n : HNode) :
    newNode h dc d n = some (att h dc d ++ [n]) := by
  unfold newNode att
  by_cases hd : d = 0
  · simp [hd]
  · rcases hp with hp | ⟨p, h1, h2⟩
    · exact absurd hp hd
    · simp only [hd, if_false, h1]
      rw [modify_append _ _ _ _ h2]

theorem att_length (h : Heap) (dc : Cache) (d : Int) : (att h dc d).length = h.length := by
  unfold att; split
  · rfl
  · split <;> simp

/-- the children of the parent are processed -/
def attL (h : Heap) (p : Nat) (is : List Nat) : Heap := h.modify p fun x => { x with children := x.children ++ is }

theorem attL_nil (h : Heap) (p : Nat) : attL h p [] = h := by
  unfold attL
  apply List.ext_getElem?; intro k
  rw [List.getElem?_modify]; split
  · cases h[k]? <;> simp
  · cases h[k]? <;> simp

theorem attL_attL (h : Heap) (p : Nat) (is js : List Nat) : attL (attL h p is) p js = attL h p (is ++ js) := by
  unfold attL
  apply List.ext_getElem?; intro k
  simp only [List.getElem?_modify]
  by_cases hk : p = k
  · simp only [hk, if_true]; cases h[k]? <;> simp
  · simp [hk]

theorem parse_repr (t : PT Str) (hg : GoodTree t) (rest : Str) (h : Heap) (dc : Cache) (d : Nat)
    (hp : Plain rest) (he : EndOk rest) (hpar : ParOk h dc d) :
    ∃ dc' : Cache, (∀ j, j < (d : Int) → dc' j = dc j) ∧
      parseRec (repr t ++ rest) h dc d =
        (cont rest (att h dc d ++ layout h.length t) dc' d).map fun x => (h.length, x) := by
  induction t using PT.induct generalizing rest h dc d with
  | leaf l =>
    refine ⟨dc, fun j _ => rfl, ?_⟩
    cases l with
    | none =>
      refine parseRec_leaf (l := none) ?_ ?_ (newNode_eq hpar _)
      · rw [clean_repr _ hg _ hp he]; simp [repr, opPrefix]
      · rw [clean_repr _ hg _ hp he]; simp [repr, leafPrefix]
    | some l =>
      refine parseRec_leaf (l := some l) ?_ ?_ (newNode_eq hpar _)
      · rw [clean_repr _ hg _ hp he]; simp [repr, opPrefix]
      · rw [clean_repr _ hg _ hp he]
        cases hg with
        | leaf _ hg =>
          simp only [repr, leafPrefix, List.cons_append, List.append_assoc, List.nil_append]
          rw [upToQuote_append l rest fun c hc => (hg l rfl c hc).1]
  | node op cs ih =>
    cases hg with
    | node _ _ hne hgc =>
    have hL : ∀ (ds : List (PT Str)), (∀ c ∈ ds, c ∈ cs) → ds ≠ [] → ∀ (h : Heap) (dc : Cache) (p : Nat),
        dc (d : Int) = some p → p < h.length →
        ∃ dc' : Cache, (∀ j, j < ((d + 1 : Nat) : Int) → dc' j = dc j) ∧
          (parseRec (reprL ds ++ ([' ', ')'] ++ rest)) h dc ((d + 1 : Nat) : Int)).map Prod.snd =
            cont rest (attL h p (ids h.length ds) ++ layoutL h.length ds) dc' d := by
      intro ds
      induction ds with
      | nil => intro _ h; exact absurd rfl h
      | cons c ds ih2 =>
        intro hds _ h dc p hdc hlt
        have hc := hds c (by simp)
        have hpar1 : ParOk h dc ((d + 1 : Nat) : Int) := .inr ⟨p, by rw [show ((d + 1 : Nat) : Int) - 1 = d by omega]; exact hdc, hlt⟩
        have hatt : att h dc ((d + 1 : Nat) : Int) = attL h p [h.length] := by
          unfold att attL
          rw [if_neg (by omega), show ((d + 1 : Nat) : Int) - 1 = d by omega, hdc]
        have hp1 : Plain [' ', ')'] := by intro c hc; revert c; decide
        have he1 : EndOk [' ', ')'] := by intro c hc; simp at hc; subst hc; decide
        by_cases hnil : ds = []
        · subst hnil
          obtain ⟨dc', h1, h2⟩ := ih c hc (hgc c hc) ([' ', ')'] ++ rest) h dc (d + 1) (hp1.append hp) (he1.append he) hpar1
          refine ⟨dc', h1, ?_⟩
          simp only [reprL]
          rw [h2, Option.map_map, hatt]
          have : (Prod.snd ∘ fun x => (h.length, x) : Heap → Heap) = id := rfl
          rw [this, Option.map_id_fun, id]
          simp only [List.cons_append, List.nil_append]
          rw [cont_close _ _ _ _ he, show ((d + 1 : Nat) : Int) - 1 = d by omega]
          simp [ids, layoutL]
        · rw [reprL_cons hnil]
          have hpl : Plain (reprL ds) := by
            have := plain_repr (.node .xor ds) (.node _ _ hnil fun c hc => hgc c (hds c (by simp [hc])))
            intro x hx
            apply this; simp only [repr, List.mem_append]; simp [hx]
          have hel : EndOk (reprL ds ++ ([' ', ')'] ++ rest)) := by
            intro x hx
            have h3 := he1.append he
            apply h3 x
            rw [List.getLast?_append] at hx
            have hne2 : ([' ', ')'] ++ rest).getLast?.isSome := by simp
            obtain ⟨y, hy⟩ := Option.isSome_iff_exists.1 hne2
            rw [hy] at hx ⊢; simpa using hx
          obtain ⟨dc1, h1, h2⟩ := ih c hc (hgc c hc) ([',', ' '] ++ (reprL ds ++ ([' ', ')'] ++ rest))) h dc (d + 1)
            (Plain.append (by intro c hc; revert c; decide) (hpl.append (hp1.append hp)))
            (by
              intro x hx
              apply hel x
              rw [List.getLast?_append] at hx
              have hne2 : (reprL ds ++ ([' ', ')'] ++ rest)).getLast?.isSome := by simp
              obtain ⟨y, hy⟩ := Option.isSome_iff_exists.1 hne2
              rw [hy] at hx ⊢; simpa using hx) hpar1
          have hassoc : repr c ++ [',', ' '] ++ reprL ds ++ ([' ', ')'] ++ rest) =
              repr c ++ ([',', ' '] ++ (reprL ds ++ ([' ', ')'] ++ rest))) := by simp
          rw [hassoc, h2, Option.map_map]
          have : (Prod.snd ∘ fun x => (h.length, x) : Heap → Heap) = id := rfl
          rw [this, Option.map_id_fun, id, hatt]
          rw [show [',', ' '] ++ (reprL ds ++ ([' ', ')'] ++ rest)) = ',' :: ' ' :: (reprL ds ++ ([' ', ')'] ++ rest)) from rfl,
            cont_comma _ _ _ _ hel]
          have hlen : (attL h p [h.length] ++ layout h.length c).length = h.length + (layout h.length c).length := by
            simp [attL]
          obtain ⟨dc2, h3, h4⟩ := ih2 (fun c hc => hds c (by simp [hc])) hnil (attL h p [h.length] ++ layout h.length c) dc1 p
            (by rw [h1 d (by omega)]; exact hdc) (by omega)
          refine ⟨dc2, fun j hj => by rw [h3 j hj, h1 j hj], ?_⟩
          rw [h4, hlen]
          congr 1
          simp only [ids, layoutL]
          rw [← List.append_assoc]
          congr 1
          unfold attL
          rw [modify_append _ _ _ _ (by simpa using hlt)]
          congr 1
          exact attL_attL h p [h.length] _
    -- the operator node itself
    have hcl := clean_repr (.node op cs) (.node op cs hne hgc) rest hp he
    have hopp : opPrefix (clean (repr (.node op cs) ++ rest)) =
        some (op, ['(', ' '] ++ (reprL cs ++ ([' ', ')'] ++ rest))) := by
      rw [hcl]
      cases op <;> simp [repr, opStr, opPrefix]
    have heN : EndOk (['(', ' '] ++ (reprL cs ++ ([' ', ')'] ++ rest))) := by
      intro x hx
      have h3 : EndOk ([' ', ')'] ++ rest) := EndOk.append (by intro c hc; simp at hc; subst hc; decide) he
      apply h3 x
      rw [List.getLast?_append, List.getLast?_append] at hx
      have hne2 : ([' ', ')'] ++ rest).getLast?.isSome := by simp
      obtain ⟨y, hy⟩ := Option.isSome_iff_exists.1 hne2
      rw [hy] at hx ⊢; simpa using hx
    have hst : strip (['(', ' '] ++ (reprL cs ++ ([' ', ')'] ++ rest))) = '(' :: ' ' :: (reprL cs ++ ([' ', ')'] ++ rest)) :=
      strip_tight _ _ (by decide) heN
    rw [parseRec_op hopp (newNode_eq hpar _) hst, parseRec_space]
    obtain ⟨dc', h1, h2⟩ := hL cs (fun c hc => hc) hne (att h dc d ++ [⟨some op, none, []⟩])
      (fun k => if k = (d : Int) then some h.length else dc k) h.length (by simp) (by simp [att_length])
    refine ⟨dc', fun j hj => by rw [h1 j (by omega)]; simp [show j ≠ (d : Int) by omega], ?_⟩
    rw [show ((d : Int) + 1) = ((d + 1 : Nat) : Int) by omega]
    have h5 : ∀ o : Option (Nat × Heap), o.map (fun p => (h.length, p.2)) = (o.map Prod.snd).map fun x => (h.length, x) := by
      intro o; cases o <;> rfl
    rw [h5, h2]
    congr 2
    simp only [List.length_append, att_length, List.length_singleton, layout]
    unfold attL
    rw [show (att h dc d ++ [⟨some op, none, []⟩] : Heap).modify h.length
        (fun x => { x with children := x.children ++ ids (h.length + 1) cs }) =
        att h dc d ++ [⟨some op, none, ids (h.length + 1) cs⟩] from ?_]
    · simp
    · apply List.ext_getElem?
      intro k
      rw [List.getElem?_modify]
      by_cases hk : h.length = k
      · subst hk
        simp only [if_true]
        rw [List.getElem?_append_right (by simp [att_length]), List.getElem?_append_right (by simp [att_length])]
        simp [att_length]
      · simp only [hk, if_false]
        rw [List.getElem?_append, List.getElem?_append]
        split
        · simp
        · rename_i hlt
          rw [att_length] at hlt ⊢
          rw [List.getElem?_eq_none (by simp; omega), List.getElem?_eq_none (by simp; omega)]
          simp

theorem ids_length (i : Nat) (cs : List (PT Str)) : (ids i cs).length = cs.length := by
  induction cs generalizing i with
  | nil => simp [ids]
  | cons c cs ih => simp [ids, ih]

theorem denotes_layout (t : PT Str) (pre post : Heap) : Denotes (pre ++ layout pre.length t ++ post) pre.length t := by
  induction t using PT.induct generalizing pre post with
  | leaf l => exact .leaf (by simp [layout])
  | node op cs ih =>
    have hL : ∀ (ds : List (PT Str)), (∀ c ∈ ds, c ∈ cs) → ∀ (pre post : Heap),
        ∀ k (h1 : k < (ids pre.length ds).length) (h2 : k < ds.length),
          Denotes (pre ++ layoutL pre.length ds ++ post) (ids pre.length ds)[k] ds[k] := by
      intro ds
      induction ds with
      | nil => intro _ _ _ k _ h2; simp at h2
      | cons c ds ih2 =>
        intro hds pre post k h1 h2
        cases k with
        | zero =>
          simp only [ids, List.getElem_cons_zero, layoutL]
          have := ih c (hds c (by simp)) pre (layoutL (pre.length + (layout pre.length c).length) ds ++ post)
          simpa using this
        | succ k =>
          simp only [ids, List.getElem_cons_succ, layoutL]
          have := ih2 (fun c hc => hds c (by simp [hc])) (pre ++ layout pre.length c) post k
            (by simpa [ids, ids_length] using h1) (by simpa using h2)
          simpa using this
    refine .node (is := ids (pre.length + 1) cs) (by simp [layout]) (ids_length _ _) ?_
    intro k h1 h2
    have := hL cs (fun c hc => hc) (pre ++ [⟨some op, none, ids (pre.length + 1) cs⟩]) post k
      (by simpa using h1) h2
    simpa [layout] using this

theorem parse_repr_top (t : PT Str) (hg : GoodTree t) : parse (repr t) = some (0, layout 0 t) := by
  obtain ⟨dc', _, h⟩ := parse_repr t hg [] [] (fun _ => none) 0 (by intro c hc; simp at hc) (by intro c hc; simp at hc) (.inl rfl)
  unfold parse
  rw [List.append_nil] at h
  rw [show (0 : Int) = ((0 : Nat) : Int) from rfl, h]
  have : cont [] (att [] (fun _ => none) ((0 : Nat) : Int) ++ layout ([] : Heap).length t) dc' ((0 : Nat) : Int) = some (layout 0 t) := by
    unfold cont
    have h1 : closeParens [] ((0 : Nat) : Int) = ([], 0) := by
      rw [closeParens]; split
      · rename_i r hr; simp [strip] at hr
      · rfl
    rw [h1]
    simp [strip, att]
  rw [this]
  simp

theorem Denotes.unique {h : Heap} {i : Nat} {s t : PT Str} (hs : Denotes h i s) (ht : Denotes h i t) : s = t := by
  induction hs generalizing t with
  | leaf h1 =>
    cases ht with
    | leaf h2 => rw [h1] at h2; simp at h2; rw [h2]
    | node h2 => rw [h1] at h2; simp at h2
  | node h1 hl hc ih =>
    cases ht with
    | leaf h2 => rw [h1] at h2; simp at h2
    | node h2 hl2 hc2 =>
      rw [h1] at h2
      simp only [Option.some.injEq, HNode.mk.injEq, true_and] at h2
      obtain ⟨rfl, rfl⟩ := h2
      congr 1
      apply List.ext_getElem
      · omega
      · intro k hk1 hk2
        exact ih k (by omega) hk1 (hc2 k (by omega) hk2)

end Verif.PTP
