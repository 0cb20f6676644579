import Verif.Powl.BuildPo
import Verif.Convert.Theorems
/-
The net built for a POWL model realises its language (C48).
-/
set_option linter.unusedSectionVars false
set_option linter.unusedSimpArgs false
namespace Verif
namespace PowlNet
open Conv Sys Lang
variable {α : Type}

theorem spec_leaf (l : Option α) : Spec (.leaf l) := by
  intro ip fp c hne h1 h2
  constructor
  · simp only [body]
    refine ⟨Nat.le_refl _, by simp, ?_, by simp, by simp, by simp, ?_⟩
    · intro t
      simp only [List.map_cons, List.map_nil, List.mem_singleton]
      omega
    · intro p
      simp only [List.not_mem_nil, Inner, false_iff]; omega
  · have e : (body (.leaf l) ip fp c).1.trs = [⟨[ip], [fp], l⟩] := by
      simp [body, Gr.trs, Gr.pre, Gr.post]
    rw [e]
    have := block_leaf l ip fp c.np h1 h2 hne
    refine this.congr fun w => ?_
    cases l <;> simp [Powl.lang, eps]

theorem spec_xor {ts : List (Powl α)} (hs : ∀ t ∈ ts, Spec t) (hne : ts ≠ []) (ip fp : Nat) (c : Cnt) (h0 : ip ≠ fp)
    (h1 : ip < c.np) (h2 : fp < c.np) :
    Good (bodyXor ts ip fp c).1 c (bodyXor ts ip fp c).2 [] ∧
    Block (bodyXor ts ip fp c).1.trs ip fp c.np (bodyXor ts ip fp c).2.np (xorL (ts.map Powl.lang)) := by
  induction ts generalizing c with
  | nil => exact absurd rfl hne
  | cons t ts ih =>
    simp only [bodyXor, sub_pp]
    obtain ⟨g1, b1⟩ := hs t (by simp) ip fp c h0 h1 h2
    cases ts with
    | nil => simpa [bodyXor] using ⟨g1, b1⟩
    | cons t' ts =>
      have a := g1.np
      obtain ⟨g2, b2⟩ := ih (fun t h => hs t (by simp [h])) (by simp) (body t ip fp c).2 (by omega) (by omega)
      refine ⟨g1.append g2, ?_⟩
      rw [g1.trs_append g2 (by simp)]
      refine (block_xor b1 b2 rfl).congr fun w => ?_
      simp [xorL]

theorem spec_loop {t t' : Powl α} (hs : Spec t) (hs' : Spec t') : Spec (.loop t t') := by
  intro ip fp c h0 h1 h2
  obtain ⟨g1, b1⟩ := hs c.np (c.np + 1) ⟨c.np + 2, c.nt + 2⟩ (by omega) (by simp only; omega) (by simp only; omega)
  rw [body]
  simp only [sub_pn, sub_pp]
  generalize hb : body t c.np (c.np + 1) ⟨c.np + 2, c.nt + 2⟩ = b at g1 b1 ⊢
  have a := g1.np; have a' := g1.nt
  simp only at a a'
  obtain ⟨g2, b2⟩ := hs' (c.np + 1) b.2.np ⟨b.2.np + 1, b.2.nt⟩
    (by omega) (by simp only; omega) (by simp only; omega)
  generalize hx : body t' (c.np + 1) b.2.np ⟨b.2.np + 1, b.2.nt⟩ = x at g2 b2 ⊢
  have x1 := g2.np; have x2 := g2.nt
  simp only at x1 x2
  let ctl : Gr α := ⟨[c.np], [(c.nt, none), (c.nt + 1, none)], [(ip, c.nt), (b.2.np, c.nt + 1)], [(c.nt, c.np), (c.nt + 1, c.np)]⟩
  let ex : Gr α := ⟨[], [(x.2.nt, none)], [(c.np + 1, x.2.nt)], [(x.2.nt, fp)]⟩
  -- what the children and the exit add
  have ga : Good (({ places := [c.np + 1] } : Gr α) ++ b.1) ⟨c.np + 1, c.nt + 2⟩ b.2 [] := g1.cons_place rfl rfl (by simp) (by simp)
  have gx : Good (({ places := [b.2.np] } : Gr α) ++ x.1) b.2 x.2 [] := g2.cons_place rfl rfl (by simp) (by simp)
  have ge : Good ex x.2 { x.2 with nt := x.2.nt + 1 } [] := by
    refine ⟨Nat.le_refl _, by simp, ?_, by simp [ex], by simp [ex], by simp [ex], ?_⟩
    · intro t
      simp only [ex, List.map_cons, List.map_nil, List.mem_singleton]
      omega
    · intro p
      simp only [ex, List.not_mem_nil, Inner, false_iff]; omega
  have gi := (ga.append (gx.append ge)).ext_mono (ext' := [c.nt, c.nt + 1]) (by simp)
  have ti := ga.trs_append (gx.append ge) (by simp)
  rw [gx.trs_append ge (by simp), Gr.trs_places, Gr.trs_places] at ti
  obtain ⟨gn, tn⟩ := node_good (c := c) (ctl := ctl) (k := 1) gi (by simp [ctl, List.range']) rfl (by simp [ctl]) (by simp [ctl])
  have gi' := ga.append (gx.append ge)
  rw [gi'.pre_nil (.inl (by simp only; omega)) (by simp), gi'.post_nil (.inl (by simp only; omega)) (by simp),
    gi'.pre_nil (.inl (by simp only; omega)) (by simp), gi'.post_nil (.inl (by simp only; omega)) (by simp), ti] at tn
  -- the order of the arcs of the loop transition does not matter
  have key : ∀ G : Gr α, G.places = (ctl ++ (({ places := [c.np + 1] } : Gr α) ++ b.1 ++ (({ places := [b.2.np] } : Gr α) ++ x.1 ++ ex))).places →
      G.trans = (ctl ++ (({ places := [c.np + 1] } : Gr α) ++ b.1 ++ (({ places := [b.2.np] } : Gr α) ++ x.1 ++ ex))).trans →
      (∀ a, a ∈ G.pt ↔ a ∈ (ctl ++ (({ places := [c.np + 1] } : Gr α) ++ b.1 ++ (({ places := [b.2.np] } : Gr α) ++ x.1 ++ ex))).pt) →
      (∀ a, a ∈ G.tp ↔ a ∈ (ctl ++ (({ places := [c.np + 1] } : Gr α) ++ b.1 ++ (({ places := [b.2.np] } : Gr α) ++ x.1 ++ ex))).tp) →
      Good G c { x.2 with nt := x.2.nt + 1 } [] := by
    intro G h1 h2 h3 h4
    exact ⟨gn.np, gn.nt, by rw [h2]; exact gn.trans, by rw [h2]; exact gn.nodup, fun a ha => gn.pt a ((h3 a).1 ha),
      fun a ha => gn.tp a ((h4 a).1 ha), by rw [h1]; exact gn.places⟩
  refine ⟨key _ ?_ ?_ ?_ ?_, ?_⟩
  · simp [ctl, ex]
  · simp [ctl, ex]
  · intro a; simp [ctl, ex]; grind
  · intro a; simp [ctl, ex]; grind
  · have bl := block_loop b1 b2 h1 h2 h0 rfl rfl rfl rfl
    have : Block (loopTr b.1.trs x.1.trs ip fp c.np (c.np + 1) b.2.np) ip fp c.np x.2.np (Powl.lang (.loop t t')) := by
      refine bl.congr fun w => ?_
      rw [Powl.lang]
    refine this.mono fun tr => ?_
    have bnil : ∀ t, t < c.nt + 2 → b.1.pre t = [] ∧ b.1.post t = [] := fun t h =>
      ⟨g1.pre_nil (.inl h) (by simp), g1.post_nil (.inl h) (by simp)⟩
    have xnil : ∀ t, t < b.2.nt → x.1.pre t = [] ∧ x.1.post t = [] := fun t h =>
      ⟨g2.pre_nil (.inl h) (by simp), g2.post_nil (.inl h) (by simp)⟩
    have et : ∀ G : Gr α, G.trans = (ctl ++ (({ places := [c.np + 1] } : Gr α) ++ b.1 ++ (({ places := [b.2.np] } : Gr α) ++ x.1 ++ ex))).trans →
        (∀ t, G.pre t = (ctl ++ (({ places := [c.np + 1] } : Gr α) ++ b.1 ++ (({ places := [b.2.np] } : Gr α) ++ x.1 ++ ex))).pre t) →
        (∀ t, G.post t = (ctl ++ (({ places := [c.np + 1] } : Gr α) ++ b.1 ++ (({ places := [b.2.np] } : Gr α) ++ x.1 ++ ex))).post t) →
        G.trs = (ctl ++ (({ places := [c.np + 1] } : Gr α) ++ b.1 ++ (({ places := [b.2.np] } : Gr α) ++ x.1 ++ ex))).trs := by
      intro G h1 h2 h3
      unfold Gr.trs
      rw [h1]
      exact List.map_congr_left fun e _ => by rw [h2, h3]
    have tnil : ∀ t, t ≠ c.nt + 1 → ∀ q : Nat, List.map Prod.fst (List.filter (fun a : Nat × Nat => a.2 == t) [(q, c.nt + 1)]) = [] := by
      intro t ht q; simp [Ne.symm ht]
    rw [et (_ ++ _)]
    · rw [tn]
      have ee : ex.trs = [⟨[c.np + 1], [fp], none⟩] := by simp [ex, Gr.trs]
      have e1 : ctl.pre c.nt = [ip] := by simp [ctl]
      have e2 : ctl.post c.nt = [c.np] := by simp [ctl]
      have e3 : ctl.pre (c.nt + 1) = [b.2.np] := by simp [ctl]
      have e4 : ctl.post (c.nt + 1) = [c.np] := by simp [ctl]
      rw [ee, e1, e2, e3, e4]
      simp only [loopTr, List.mem_cons, List.mem_append, List.append_nil, List.not_mem_nil, or_false]
      generalize (tr ∈ b.1.trs) = A
      generalize (tr ∈ x.1.trs) = B
      constructor
      · rintro (h | h | h | h | h)
        · exact .inl h
        · exact .inr (.inl h)
        · exact .inr (.inr (.inr (.inr h)))
        · exact .inr (.inr (.inl h))
        · exact .inr (.inr (.inr (.inl h)))
      · rintro (h | h | h | h | h)
        · exact .inl h
        · exact .inr (.inl h)
        · exact .inr (.inr (.inr (.inl h)))
        · exact .inr (.inr (.inr (.inr h)))
        · exact .inr (.inr (.inl h))
    · simp [ctl, ex]
    · intro t
      by_cases e : t = c.nt + 1
      · subst e
        have q1 : x.2.nt ≠ c.nt + 1 := by omega
        simp [ctl, ex, (bnil (c.nt + 1) (by omega)).1, (xnil (c.nt + 1) (by omega)).1, q1]
      · simp [ctl, ex, List.filter_cons, Ne.symm e]
    · intro t
      by_cases e : t = c.nt + 1
      · subst e
        have q1 : x.2.nt ≠ c.nt + 1 := by omega
        simp [ctl, ex, (bnil (c.nt + 1) (by omega)).2, (xnil (c.nt + 1) (by omega)).2, q1]
      · simp [ctl, ex, List.filter_cons, Ne.symm e]


/-- the net built for a valid model realises its language -/
theorem spec_all {t : Powl α} (h : t.Valid) : Spec t := by
  induction h with
  | leaf l => exact spec_leaf l
  | xor cs h2 _ ih =>
    intro ip fp c h0 h1 h2'
    have := spec_xor ih (by rintro rfl; simp at h2) ip fp c h0 h1 h2'
    simpa [body, Powl.lang, Powl.langs_eq_map] using this
  | loop b r _ _ ih1 ih2 => exact spec_loop ih1 ih2
  | po cs E hne hA _ ih => exact spec_po ih hne hA

theorem build_ready {t : Powl α} (h : t.Valid) : Ready (build t) t.lang := by
  unfold build
  simp only [sub_pp]
  obtain ⟨gb, bb⟩ := spec_all h 2 3 ⟨4, 2⟩ (by omega) (by simp) (by simp)
  have gf := tau_good (α := α) 3 1 3 1 [3] rfl
  have gi := tau_good (α := α) 0 2 2 0 [2] rfl
  have g1 := gi.append (gf.append gb)
  refine ready_of_block g1 ?_
  rw [gi.trs_append (gf.append gb) (by simp), gf.trs_append gb (by simp), tau_trs, tau_trs]
  have b1 := block_seq bb (block_leaf (α := α) none 3 1 _ (by have := gb.np; simp only at this; omega) (by have := gb.np; simp only at this; omega) (by omega))
    (by omega) (by omega) (by omega) rfl rfl
  have b2 := block_seq (block_leaf (α := α) none 0 2 3 (by omega) (by omega) (by omega)) b1 (by omega) (by omega) (by omega) rfl rfl
  refine (b2.congr (L2 := t.lang) fun w => ?_).mono fun e => ?_
  · simp [cat]
  · simp only [List.mem_append, List.mem_singleton]; grind

theorem apply_reds {ord : Gr α → List (Nat × Option α)} (hord : ∀ g, ∀ e ∈ ord g, e ∈ g.trans) (ordP : List Nat → List Nat)
    {t : Powl α} (h : t.Valid) : Reds (build t) (apply ord ordP t) :=
  finish_reds hord ordP (build_ready h)

end PowlNet
end Verif
