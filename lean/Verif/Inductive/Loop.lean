import Verif.Inductive.Project
/-
Inductive miner: the projection of the loop cut.
-/
namespace Verif.IM
open Verif Dict Counter Dfg
variable {α : Type} [DecidableEq α]

/-- the do log and the redo logs only grow -/
structure Grow (dl dl' : UVCL α) (rls rls' : List (UVCL α)) : Prop where
  len : rls'.length = rls.length
  dos : ∀ w ∈ keys dl, w ∈ keys dl'
  redos : ∀ (i : Nat) (l l' : UVCL α), rls[i]? = some l → rls'[i]? = some l' → ∀ w ∈ keys l, w ∈ keys l'

theorem Grow.refl (dl : UVCL α) (rls : List (UVCL α)) : Grow dl dl rls rls :=
  ⟨rfl, fun _ h => h, fun i l l' h h' w hw => by rw [h] at h'; cases h'; exact hw⟩

theorem Grow.trans {a b c : UVCL α} {x y z : List (UVCL α)} (h1 : Grow a b x y) (h2 : Grow b c y z) : Grow a c x z := by
  refine ⟨h2.len.trans h1.len, fun w h => h2.dos w (h1.dos w h), ?_⟩
  intro i l l' hl hl' w hw
  have : i < y.length := by rw [h1.len]; exact (List.getElem?_eq_some_iff.1 hl).1
  exact h2.redos i _ l' (List.getElem?_eq_getElem this) hl' w (h1.redos i l _ hl (List.getElem?_eq_getElem this) w hw)

theorem Grow.inc (dl : UVCL α) (rls : List (UVCL α)) (w : List α) (n : Int) : Grow dl (inc dl w n) rls rls :=
  ⟨rfl, fun v h => (keys_inc dl w n v).2 (.inr h), (Grow.refl dl rls).redos⟩

theorem Grow.redo (dl : UVCL α) (rls : List (UVCL α)) (k : Nat) (w : List α) (n : Int) :
    Grow dl dl rls (rls.modify k fun l => Counter.inc l w n) := by
  refine ⟨by simp, fun _ h => h, ?_⟩
  intro i l l' hl hl' v hv
  rw [getElem?_modify', hl] at hl'
  split at hl'
  · simp at hl'; subst hl'; exact (keys_inc _ _ _ _).2 (.inr hv)
  · cases hl'; exact hv

/-- every trace in the do log is over the do group, every trace in a redo log over its redo group, no key twice -/
structure LSub (dg : List α) (rs : List (List α)) (dl : UVCL α) (rls : List (UVCL α)) : Prop where
  len : rls.length = rs.length
  dos : ∀ w ∈ keys dl, ∀ x ∈ w, x ∈ dg
  redos : ∀ (i : Nat) (l : UVCL α) (g : List α), rls[i]? = some l → rs[i]? = some g → ∀ w ∈ keys l, ∀ x ∈ w, x ∈ g
  ndo : (keys dl).Nodup
  nredo : ∀ l ∈ rls, (keys l).Nodup

theorem LSub.inc {dg : List α} {rs : List (List α)} {dl : UVCL α} {rls : List (UVCL α)} (h : LSub dg rs dl rls)
    (w : List α) (n : Int) (hw : ∀ x ∈ w, x ∈ dg) : LSub dg rs (inc dl w n) rls := by
  refine ⟨h.len, ?_, h.redos, nodup_inc h.ndo _ _, h.nredo⟩
  intro v hv
  rcases (keys_inc dl w n v).1 hv with rfl | hv
  · exact hw
  · exact h.dos v hv

theorem LSub.redo {dg : List α} {rs : List (List α)} {dl : UVCL α} {rls : List (UVCL α)} (h : LSub dg rs dl rls)
    (k : Nat) (g : List α) (hk : rs[k]? = some g) (w : List α) (n : Int) (hw : ∀ x ∈ w, x ∈ g) :
    LSub dg rs dl (rls.modify k fun l => Counter.inc l w n) := by
  refine ⟨by simp [h.len], h.dos, ?_, h.ndo, ?_⟩
  · intro i l g' hl hg v hv
    rw [getElem?_modify'] at hl
    split at hl
    · rename_i hki
      subst hki
      rw [Option.map_eq_some_iff] at hl
      obtain ⟨l0, h0, rfl⟩ := hl
      rcases (keys_inc _ _ _ v).1 hv with rfl | hv
      · rw [hk] at hg; cases hg; exact hw
      · exact h.redos k l0 g' h0 hg v hv
    · exact h.redos i l g' hl hg v hv
  · intro l hl
    obtain ⟨i, hi⟩ := List.getElem?_of_mem hl
    rw [getElem?_modify'] at hi
    split at hi
    · rw [Option.map_eq_some_iff] at hi
      obtain ⟨l0, h0, rfl⟩ := hi
      exact nodup_inc (h.nredo l0 (List.mem_of_getElem? h0)) _ _
    · exact h.nredo l (List.mem_of_getElem? hi)

/-- the traces of the logs are accepted -/
structure LFit (D : Lang α) (Ms : List (Lang α)) (dl : UVCL α) (rls : List (UVCL α)) : Prop where
  dos : ∀ w ∈ keys dl, D w
  len : Ms.length = rls.length
  redos : ∀ (i : Nat) (l : UVCL α) (M : Lang α), rls[i]? = some l → Ms[i]? = some M → ∀ w ∈ keys l, M w

theorem LFit.back {D : Lang α} {Ms : List (Lang α)} {a b : UVCL α} {x y : List (UVCL α)} (h : LFit D Ms b y)
    (hg : Grow a b x y) : LFit D Ms a x := by
  refine ⟨fun w hw => h.dos w (hg.dos w hw), h.len.trans hg.len, ?_⟩
  intro i l M hl hM w hw
  have : i < y.length := by rw [hg.len]; exact (List.getElem?_eq_some_iff.1 hl).1
  exact h.redos i _ M (List.getElem?_eq_getElem this) hM w (hg.redos i l _ hl (List.getElem?_eq_getElem this) w hw)

/-- mode of the loop over the events: inside a do part, or inside a redo part of group `i` -/
def Mode (dg : List α) (rs : List (List α)) (last : α) (s : LoopSt α) : Option Nat → Prop
  | none => last ∈ dg ∧ s.redoTr = [] ∧ s.doTr ≠ [] ∧ ∀ x ∈ s.doTr, x ∈ dg
  | some i => ∃ g, rs[i]? = some g ∧ last ∈ g ∧ s.doTr = [] ∧ s.redoTr ≠ [] ∧ ∀ x ∈ s.redoTr, x ∈ g

/-- what has been read in the current part and the rest of the trace are accepted -/
def Accept (D : Lang α) (Ms : List (Lang α)) (s : LoopSt α) (t : List α) : Option Nat → Prop
  | none => Lang.loopL D Ms (s.doTr ++ t)
  | some i => ∃ M r w, Ms[i]? = some M ∧ M r ∧ Lang.loopL D Ms w ∧ s.redoTr ++ t = r ++ w

theorem events_ok {V : α → Prop} {dg : List α} {rs : List (List α)} (hp : Partn V (dg :: rs)) (n : Int) (t : List α) :
    ∀ (last : α) (s : LoopSt α) (m : Option Nat),
      Mode dg rs last s m → LSub dg rs s.doLog s.redoLogs →
      (∀ x ∈ t, V x) →
      (∀ u a b v, last :: t = u ++ a :: b :: v → ∀ g ∈ rs, ∀ h ∈ rs, a ∈ g → b ∈ h → a ∈ h) →
      (∀ u a, last :: t = u ++ [a] → a ∈ dg) →
      let r := t.foldl (loopEvent dg rs n) s
      r.redoTr = [] ∧ (∀ x ∈ r.doTr, x ∈ dg) ∧ Grow s.doLog r.doLog s.redoLogs r.redoLogs ∧
        LSub dg rs r.doLog r.redoLogs ∧
        ∀ D Ms, LFit D Ms r.doLog r.redoLogs → D r.doTr → Accept D Ms s t m := by
  have hp' : Partn (fun a => ∃ g ∈ rs, a ∈ g) rs :=
    ⟨fun a => Iff.rfl, (List.pairwise_cons.1 hp.disj).2, fun g hg => hp.ne g (by simp [hg])⟩
  have hdisj : ∀ x ∈ dg, ∀ g ∈ rs, x ∉ g := fun x hx g hg => (List.pairwise_cons.1 hp.disj).1 g hg x hx
  induction t with
  | nil =>
    intro last s m hm hsub hV _ hend
    have hl := hend [] last rfl
    cases m with
    | none =>
      obtain ⟨h1, h2, h3, h4⟩ := hm
      refine ⟨h2, h4, Grow.refl _ _, hsub, ?_⟩
      intro D Ms _ hD
      simp only [Accept, List.append_nil]
      exact .exit hD
    | some i =>
      obtain ⟨g, hg, hlg, _⟩ := hm
      exact absurd hlg (hdisj last hl g (List.mem_of_getElem? hg))
  | cons e t ih =>
    intro last s m hm hsub hV hch hend
    rw [List.foldl_cons]
    have hVt : ∀ x ∈ t, V x := fun x hx => hV x (by simp [hx])
    have hch' : ∀ u a b v, e :: t = u ++ a :: b :: v → ∀ g ∈ rs, ∀ h ∈ rs, a ∈ g → b ∈ h → a ∈ h :=
      fun u a b v he => hch (last :: u) a b v (by rw [he]; rfl)
    have hend' : ∀ u a, e :: t = u ++ [a] → a ∈ dg := fun u a he => hend (last :: u) a (by rw [he]; rfl)
    by_cases hed : e ∈ dg
    · cases m with
      | none =>
        obtain ⟨h1, h2, h3, h4⟩ := hm
        have hstep : loopEvent dg rs n s e = { s with doTr := s.doTr ++ [e] } := by
          unfold loopEvent; rw [if_pos hed]; simp [h2]
        rw [hstep]
        obtain ⟨r1, r2, r3, r4, r5⟩ := ih e { s with doTr := s.doTr ++ [e] } none
          ⟨hed, h2, by simp, by
            intro x hx
            rcases List.mem_append.1 hx with hx | hx
            · exact h4 x hx
            · rw [List.mem_singleton.1 hx]; exact hed⟩ hsub hVt hch' hend'
        refine ⟨r1, r2, r3, r4, ?_⟩
        intro D Ms hf hD
        have := r5 D Ms hf hD
        simpa [Accept] using this
      | some i =>
        obtain ⟨g, hg, hlg, h2, h3, h4⟩ := hm
        have hbest : best (rs.map fun grp => ((dedup s.redoTr).filter fun x => decide (x ∈ grp)).length) = i :=
          best_group hp' s.redoTr h3 i g hg h4 dedup (fun x => mem_dedup _ x)
        have hlen : 0 < s.redoTr.length := List.length_pos_iff.2 h3
        have hstep : loopEvent dg rs n s e = { s with doTr := [e], redoTr := [], redoLogs := s.redoLogs.modify i fun l => inc l s.redoTr n } := by
          unfold loopEvent appendRedo
          rw [if_pos hed]
          simp only [h2, List.nil_append]
          rw [if_pos hlen, hbest]
        rw [hstep]
        obtain ⟨r1, r2, r3, r4, r5⟩ := ih e
          { s with doTr := [e], redoTr := [], redoLogs := s.redoLogs.modify i fun l => inc l s.redoTr n } none
          ⟨hed, rfl, by simp, by simp [hed]⟩ (hsub.redo i g hg _ n h4) hVt hch' hend'
        refine ⟨r1, r2, (Grow.redo s.doLog s.redoLogs i s.redoTr n).trans r3, r4, ?_⟩
        intro D Ms hf hD
        have hacc := r5 D Ms hf hD
        have hfs := hf.back r3
        have hil : i < s.redoLogs.length := by rw [hsub.len]; exact (List.getElem?_eq_some_iff.1 hg).1
        have hiM : i < Ms.length := by rw [hfs.len]; simpa using hil
        refine ⟨Ms[i], s.redoTr, e :: t, List.getElem?_eq_getElem hiM, ?_, by simpa [Accept] using hacc, rfl⟩
        refine hfs.redos i (inc s.redoLogs[i] s.redoTr n) _ ?_ (List.getElem?_eq_getElem hiM) _ ((keys_inc _ _ _ _).2 (.inl rfl))
        simp only [getElem?_modify', List.getElem?_eq_getElem hil, if_true, Option.map_some]
    · have hVe : V e := hV e (by simp)
      obtain ⟨h, hh, heh⟩ : ∃ h ∈ rs, e ∈ h := by
        obtain ⟨h, hh, heh⟩ := (hp.cover e).1 hVe
        rcases List.mem_cons.1 hh with rfl | hh
        · exact absurd heh hed
        · exact ⟨h, hh, heh⟩
      have hefl : e ∈ rs.flatten := List.mem_flatten.2 ⟨h, hh, heh⟩
      cases m with
      | none =>
        obtain ⟨h1, h2, h3, h4⟩ := hm
        obtain ⟨j, hj⟩ := List.getElem?_of_mem hh
        have hlen : 0 < s.doTr.length := List.length_pos_iff.2 h3
        have hstep : loopEvent dg rs n s e = { s with redoTr := [e], doTr := [], doLog := inc s.doLog s.doTr n } := by
          unfold loopEvent
          rw [if_neg hed, if_pos hefl]
          simp only [h2, List.nil_append]
          rw [if_pos hlen]
        rw [hstep]
        obtain ⟨r1, r2, r3, r4, r5⟩ := ih e { s with redoTr := [e], doTr := [], doLog := inc s.doLog s.doTr n } (some j)
          ⟨h, hj, heh, rfl, by simp, by simp [heh]⟩ (hsub.inc _ n h4) hVt hch' hend'
        refine ⟨r1, r2, (Grow.inc s.doLog s.redoLogs s.doTr n).trans r3, r4, ?_⟩
        intro D Ms hf hD
        obtain ⟨M, r, w, hM, hMr, hw, he⟩ := r5 D Ms hf hD
        have hDd : D s.doTr := (hf.back r3).dos _ ((keys_inc _ _ _ _).2 (.inl rfl))
        simp only [Accept]
        rw [show s.doTr ++ e :: t = s.doTr ++ r ++ w by rw [List.append_assoc, ← he]; rfl]
        exact .again M hDd (List.mem_of_getElem? hM) hMr hw
      | some i =>
        obtain ⟨g, hg, hlg, h2, h3, h4⟩ := hm
        have heg : e ∈ g := by
          have hlh := hch [] last e t rfl g (List.mem_of_getElem? hg) h hh hlg heh
          have := hp'.eq_of_mem (List.mem_of_getElem? hg) hh hlg hlh
          rw [this]; exact heh
        have hstep : loopEvent dg rs n s e = { s with redoTr := s.redoTr ++ [e] } := by
          unfold loopEvent
          rw [if_neg hed, if_pos hefl]
          simp [h2]
        rw [hstep]
        obtain ⟨r1, r2, r3, r4, r5⟩ := ih e { s with redoTr := s.redoTr ++ [e] } (some i)
          ⟨g, hg, heg, h2, by simp, by
            intro x hx
            rcases List.mem_append.1 hx with hx | hx
            · exact h4 x hx
            · rw [List.mem_singleton.1 hx]; exact heg⟩ hsub hVt hch' hend'
        refine ⟨r1, r2, r3, r4, ?_⟩
        intro D Ms hf hD
        obtain ⟨M, r, w, hM, hMr, hw, he⟩ := r5 D Ms hf hD
        exact ⟨M, r, w, hM, hMr, hw, by rw [← he]; simp⟩

theorem loopTrace_ok {L : UVCL α} {dg : List α} {rs : List (List α)} (hi : LoopInv L (dg :: rs)) (hne : [] ∉ keys L)
    (e : List α × Int) (he : e.1 ∈ keys L) (dl : UVCL α) (rls : List (UVCL α)) (hs : LSub dg rs dl rls) :
    ∃ dl' rls', loopTrace dg rs (some (dl, rls)) e = some (dl', rls') ∧ Grow dl dl' rls rls' ∧ LSub dg rs dl' rls' ∧
      ∀ D Ms, LFit D Ms dl' rls' → Lang.loopL D Ms e.1 := by
  obtain ⟨d', rs', hd, h1, h2, h3⟩ := hi.ends
  obtain ⟨rfl, rfl⟩ := List.cons.inj hd
  obtain ⟨t, n⟩ := e
  simp only at he
  cases t with
  | nil => exact absurd he hne
  | cons a t =>
    have had : a ∈ dg := h1 a ⟨t, he⟩
    have hfirst : loopEvent dg rs n ⟨dl, rls, [], []⟩ a = ⟨dl, rls, [a], []⟩ := by
      unfold loopEvent; rw [if_pos had]; simp
    have hev := events_ok hi.part n t a ⟨dl, rls, [a], []⟩ none ⟨had, rfl, by simp, by simp [had]⟩ hs
      (fun x hx => ⟨_, he, by simp [hx]⟩)
      (fun u x y v huv => h3 x y ⟨_, he, u, v, huv⟩)
      (fun u x hux => h2 x ⟨u, hux ▸ he⟩)
    have hrun : (a :: t).foldl (loopEvent dg rs n) ⟨dl, rls, [], []⟩ = t.foldl (loopEvent dg rs n) ⟨dl, rls, [a], []⟩ := by
      rw [List.foldl_cons, hfirst]
    generalize hr : t.foldl (loopEvent dg rs n) ⟨dl, rls, [a], []⟩ = r at *
    obtain ⟨r1, r2, r3, r4, r5⟩ := hev
    refine ⟨inc r.doLog r.doTr n, r.redoLogs, ?_, r3.trans (Grow.inc _ _ _ _), r4.inc _ n r2, ?_⟩
    · unfold loopTrace
      simp only [hrun, r1]
      simp
    · intro D Ms hf
      have hacc := r5 D Ms (hf.back (Grow.inc _ _ _ _)) (hf.dos _ ((keys_inc _ _ _ _).2 (.inl rfl)))
      simpa [Accept] using hacc

theorem loop_fold {L : UVCL α} {dg : List α} {rs : List (List α)} (hi : LoopInv L (dg :: rs)) (hne : [] ∉ keys L)
    (l : List (List α × Int)) (hl : ∀ e ∈ l, e.1 ∈ keys L) (dl : UVCL α) (rls : List (UVCL α)) (hs : LSub dg rs dl rls) :
    ∃ dl' rls', l.foldl (loopTrace dg rs) (some (dl, rls)) = some (dl', rls') ∧ Grow dl dl' rls rls' ∧ LSub dg rs dl' rls' ∧
      ∀ D Ms, LFit D Ms dl' rls' → ∀ e ∈ l, Lang.loopL D Ms e.1 := by
  induction l generalizing dl rls with
  | nil => exact ⟨dl, rls, rfl, Grow.refl _ _, hs, by simp⟩
  | cons e l ih =>
    obtain ⟨dl1, rls1, e1, g1, s1, f1⟩ := loopTrace_ok hi hne e (hl e (by simp)) dl rls hs
    rw [List.foldl_cons, e1]
    obtain ⟨dl2, rls2, e2, g2, s2, f2⟩ := ih (fun e he => hl e (by simp [he])) dl1 rls1 s1
    refine ⟨dl2, rls2, e2, g1.trans g2, s2, ?_⟩
    intro D Ms hf x hx
    rcases List.mem_cons.1 hx with rfl | hx
    · exact f1 D Ms (hf.back g2)
    · exact f2 D Ms hf x hx

theorem loopL_mem {D : Lang α} {Ms : List (Lang α)} {t : List α} (h : Lang.loopL D Ms t) (x : α) (hx : x ∈ t) :
    (∃ w, D w ∧ x ∈ w) ∨ ∃ M ∈ Ms, ∃ w, M w ∧ x ∈ w := by
  induction h with
  | exit hd => exact .inl ⟨_, hd, hx⟩
  | again R hd hR hr _ ih =>
    rcases List.mem_append.1 hx with hx | hx
    · rcases List.mem_append.1 hx with hx | hx
      · exact .inl ⟨_, hd, hx⟩
      · exact .inr ⟨R, hR, _, hr, hx⟩
    · exact ih hx

theorem loop_ok {L : UVCL α} {gs : List (List α)} (hi : LoopInv L gs) (hne : [] ∉ keys L) :
    ∃ logs, projectLoop L gs = some logs ∧ Split L gs logs ∧
      ∀ Ms, Fits logs Ms → ∀ t ∈ keys L, PT.opLang .loop Ms t := by
  obtain ⟨dg, rs, rfl, _⟩ := hi.ends
  obtain ⟨dl, rls, e, _, s, f⟩ := loop_fold hi hne L (fun e he => List.mem_map.2 ⟨e, he, rfl⟩) [] (rs.map fun _ => []) (by
    refine ⟨by simp, by simp, ?_, by simp, ?_⟩
    · intro i l g hl
      rw [List.getElem?_map, Option.map_eq_some_iff] at hl
      obtain ⟨_, _, rfl⟩ := hl
      simp
    · intro l hl
      obtain ⟨_, _, rfl⟩ := List.mem_map.1 hl
      simp)
  have hf' : ∀ D Ms, LFit D Ms dl rls → ∀ t ∈ keys L, Lang.loopL D Ms t := by
    intro D Ms hf t ht
    obtain ⟨e, he, rfl⟩ := List.mem_map.1 ht
    exact f D Ms hf e he
  refine ⟨dl :: rls, by unfold projectLoop; simp only [e]; rfl, ⟨by simp [s.len], ?_, ?_, ?_⟩, ?_⟩
  · intro i l g hl hg
    cases i with
    | zero => simp at hl hg; subst hl; subst hg; exact s.dos
    | succ i => simp at hl hg; exact s.redos i l g hl hg
  · rintro a ⟨t, ht, ha⟩
    have := hf' (fun w => w ∈ keys dl) (rls.map fun l => fun w => w ∈ keys l) ⟨fun _ h => h, by simp, by
      intro i l M hl hM w hw
      rw [List.getElem?_map, hl] at hM
      simp at hM; subst hM; exact hw⟩ t ht
    rcases loopL_mem this a ha with ⟨w, hw, haw⟩ | ⟨M, hM, w, hw, haw⟩
    · exact ⟨dl, by simp, w, hw, haw⟩
    · obtain ⟨l, hl, rfl⟩ := List.mem_map.1 hM
      exact ⟨l, by simp [hl], w, hw, haw⟩
  · intro l hl
    rcases List.mem_cons.1 hl with rfl | hl
    · exact s.ndo
    · exact s.nredo l hl
  · intro Ms hM t ht
    cases Ms with
    | nil => have := hM.len; simp at this
    | cons D Ms =>
      apply hf' D Ms _ t ht
      refine ⟨hM.fit 0 dl D (by simp) (by simp), by simpa using hM.len, ?_⟩
      intro i l M hl hMi
      exact hM.fit (i + 1) l M (by simpa using hl) (by simpa using hMi)

end Verif.IM
