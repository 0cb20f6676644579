import Verif.Convert.Build
import Verif.Powl.Model
import Verif.Powl.BlockPoC
/-
The net built for a POWL model is a block that realises its language (C48, before the reduction).
-/
set_option linter.unusedSectionVars false
set_option linter.unusedSimpArgs false
namespace Verif
namespace PowlNet
open Conv Sys Lang
variable {α : Type}

/-- a child of a partial order in the net -/
structure Desc (α : Type) where
  iT : Nat
  fT : Nat
  sI : Option Nat
  eF : Option Nat
  inner : List (Nat × Option α)
  kid : PKid α

/-- shape of a child that is built with the counters `c` to `c'` -/
structure Desc.OK (d : Desc α) (c c' : Cnt) : Prop where
  iT : d.iT = c.nt
  fT : d.fT = c.nt + 1
  nt : c.nt + 2 ≤ c'.nt
  inner : ∀ e ∈ d.inner, c.nt + 2 ≤ e.1 ∧ e.1 < c'.nt
  sI : ∀ p ∈ d.sI, p = c.np ∧ p < d.kid.ip
  eF : ∀ p ∈ d.eF, c.np ≤ p ∧ p < d.kid.ip ∧ (∀ q ∈ d.sI, q < p)
  cov : ∀ p, c.np ≤ p → p < d.kid.ip → p ∈ d.sI ∨ p ∈ d.eF
  ip : c.np ≤ d.kid.ip
  fp : d.kid.fp = d.kid.ip + 1
  lo : d.kid.lo = d.kid.ip + 2
  hi : d.kid.hi = c'.np
  block : Block d.kid.T d.kid.ip d.kid.fp d.kid.lo d.kid.hi d.kid.L

/-- the children use consecutive intervals of places and transitions -/
inductive Chain : List (Desc α) → Cnt → Cnt → Prop
  | nil (c : Cnt) : Chain [] c c
  | cons {d : Desc α} {ds : List (Desc α)} {c c1 c' : Cnt} : d.OK c c1 → Chain ds c1 c' → Chain (d :: ds) c c'

/-- the arcs of the children in the net `g` -/
structure Arcs (g : Gr α) (d : Desc α) : Prop where
  preI : g.pre d.iT = d.sI.toList
  postI : g.post d.iT = [d.kid.ip]
  preF : g.pre d.fT = [d.kid.fp]
  postF : g.post d.fT = d.eF.toList
  T : d.kid.T = d.inner.map fun e => ⟨g.pre e.1, g.post e.1, e.2⟩

/-- what `body` does for a model -/
def Spec (t : Powl α) : Prop := ∀ ip fp c, ip ≠ fp → ip < c.np → fp < c.np →
  Good (body t ip fp c).1 c (body t ip fp c).2 [] ∧ Block (body t ip fp c).1.trs ip fp c.np (body t ip fp c).2.np t.lang

theorem Arcs.append {g h : Gr α} {d : Desc α} (ha : Arcs g d) (h1 : ∀ t, t = d.iT ∨ t = d.fT ∨ t ∈ d.inner.map Prod.fst → h.pre t = [] ∧ h.post t = []) :
    Arcs (g ++ h) d := by
  refine ⟨?_, ?_, ?_, ?_, ?_⟩
  · rw [Gr.pre_append, ha.preI, (h1 _ (.inl rfl)).1, List.append_nil]
  · rw [Gr.post_append, ha.postI, (h1 _ (.inl rfl)).2, List.append_nil]
  · rw [Gr.pre_append, ha.preF, (h1 _ (.inr (.inl rfl))).1, List.append_nil]
  · rw [Gr.post_append, ha.postF, (h1 _ (.inr (.inl rfl))).2, List.append_nil]
  · rw [ha.T]
    refine List.map_congr_left fun e he => ?_
    have := h1 e.1 (.inr (.inr (List.mem_map_of_mem he)))
    rw [Gr.pre_append, Gr.post_append, this.1, this.2]; simp

theorem Arcs.prepend {g h : Gr α} {d : Desc α} (ha : Arcs g d) (h1 : ∀ t, t = d.iT ∨ t = d.fT ∨ t ∈ d.inner.map Prod.fst → h.pre t = [] ∧ h.post t = []) :
    Arcs (h ++ g) d := by
  refine ⟨?_, ?_, ?_, ?_, ?_⟩
  · rw [Gr.pre_append, ha.preI, (h1 _ (.inl rfl)).1, List.nil_append]
  · rw [Gr.post_append, ha.postI, (h1 _ (.inl rfl)).2, List.nil_append]
  · rw [Gr.pre_append, ha.preF, (h1 _ (.inr (.inl rfl))).1, List.nil_append]
  · rw [Gr.post_append, ha.postF, (h1 _ (.inr (.inl rfl))).2, List.nil_append]
  · rw [ha.T]
    refine List.map_congr_left fun e he => ?_
    have := h1 e.1 (.inr (.inr (List.mem_map_of_mem he)))
    rw [Gr.pre_append, Gr.post_append, this.1, this.2]; simp

theorem Desc.OK.num {d : Desc α} {c c' : Cnt} (h : d.OK c c') {t : Nat} (ht : t = d.iT ∨ t = d.fT ∨ t ∈ d.inner.map Prod.fst) :
    c.nt ≤ t ∧ t < c'.nt := by
  have := h.iT; have := h.fT; have := h.nt
  rcases ht with rfl | rfl | ht
  · omega
  · omega
  · obtain ⟨e, he, rfl⟩ := List.mem_map.1 ht
    have := h.inner e he; omega

theorem Chain.le {ds : List (Desc α)} {c c' : Cnt} (h : Chain ds c c') : c.nt ≤ c'.nt ∧ c.np ≤ c'.np := by
  induction h with
  | nil => exact ⟨Nat.le_refl _, Nat.le_refl _⟩
  | cons h _ ih =>
    have := h.nt; have := h.block.le; have := h.lo; have := h.ip; have := h.hi
    omega

theorem Chain.mem {ds : List (Desc α)} {c c' : Cnt} (h : Chain ds c c') {d : Desc α} (hd : d ∈ ds) :
    ∃ c1 c2, d.OK c1 c2 ∧ c.nt ≤ c1.nt ∧ c2.nt ≤ c'.nt ∧ c.np ≤ c1.np ∧ c2.np ≤ c'.np := by
  induction h with
  | nil => cases hd
  | @cons d0 ds0 c0 c1 c2 hok hch ih =>
    have := hok.nt; have := hok.block.le; have := hok.lo; have := hok.ip; have := hok.hi
    have := hch.le
    rcases List.mem_cons.1 hd with rfl | hd
    · exact ⟨_, _, hok, by omega, by omega, by omega, by omega⟩
    · obtain ⟨a, b, h1, h2, h3, h4, h5⟩ := ih hd
      exact ⟨a, b, h1, by omega, h3, by omega, h5⟩

/-- control nodes in front of a part of the net -/
theorem ctl_good {g0 b : Gr α} {c c1 c' : Cnt} {sp jn : Nat} (gb : Good b c1 c' []) (h1 : c1.nt = c.nt + 2) (h2 : c.np ≤ c1.np)
    (ht : g0.trans = [(c.nt, none), (c.nt + 1, none)]) (hp : ∀ p, p ∈ g0.places ↔ c.np ≤ p ∧ p < c1.np)
    (hpt : ∀ a ∈ g0.pt, a.2 = c.nt ∨ a.2 = c.nt + 1 ∨ a.2 = jn) (htp : ∀ a ∈ g0.tp, a.1 = c.nt ∨ a.1 = c.nt + 1 ∨ a.1 = sp) :
    Good (g0 ++ b) c c' [sp, jn] := by
  have a1 := gb.np; have a2 := gb.nt
  refine ⟨by omega, by omega, ?_, ?_, ?_, ?_, ?_⟩
  · intro t
    rw [Gr.append_trans, List.map_append, List.mem_append, gb.trans, ht]
    simp only [List.map_cons, List.map_nil, List.mem_cons, List.not_mem_nil, or_false]
    omega
  · rw [Gr.append_trans, List.map_append]
    refine List.nodup_append.2 ⟨by simp [ht], gb.nodup, ?_⟩
    intro a ha b hb
    have := (gb.trans b).1 hb
    simp only [ht, List.map_cons, List.map_nil, List.mem_cons, List.not_mem_nil, or_false] at ha
    omega
  · intro a ha
    simp only [List.mem_cons, List.not_mem_nil, or_false]
    rcases List.mem_append.1 ha with ha | ha
    · have := hpt a ha; omega
    · have := gb.pt a ha
      simp only [List.not_mem_nil, or_false] at this
      omega
  · intro a ha
    simp only [List.mem_cons, List.not_mem_nil, or_false]
    rcases List.mem_append.1 ha with ha | ha
    · have := htp a ha; omega
    · have := gb.tp a ha
      simp only [List.not_mem_nil, or_false] at this
      omega
  · intro p
    rw [Gr.append_places, List.mem_append, gb.places, hp]
    simp only [Inner]; omega

/-- one child -/
theorem kid_good {t : Powl α} (ht : Spec t) (st en : Bool) (sp jn : Nat) (c : Cnt) (h1 : sp < c.nt) (h2 : jn < c.nt) (h0 : sp ≠ jn)
    (np1 np2 : Nat) (hn1 : np1 = if st then c.np + 1 else c.np) (hn2 : np2 = if en then np1 + 1 else np1)
    (s e : Gr α) (hs : s = if st then { places := [c.np], pt := [(c.np, c.nt)], tp := [(sp, c.np)] } else {})
    (he : e = if en then { places := [np1], pt := [(np1, jn)], tp := [(c.nt + 1, np1)] } else {})
    (r : Gr α × Cnt × Nat) (hr : r = sub (body t) (.trans c.nt) (some (.trans (c.nt + 1))) ⟨np2, c.nt + 2⟩)
    (g : Gr α) (hg : g = { trans := [(c.nt, none), (c.nt + 1, none)] } ++ (s ++ (e ++ r.1))) :
    ∃ d : Desc α, d.OK c r.2.1 ∧ Good g c r.2.1 [sp, jn] ∧ Arcs g d ∧ d.kid.L = t.lang ∧
      g.trans = (d.iT, none) :: (d.fT, none) :: d.inner ∧
      g.pre sp = [] ∧ g.post sp = d.sI.toList ∧ g.pre jn = d.eF.toList ∧ g.post jn = [] ∧
      d.sI.isSome = st ∧ d.eF.isSome = en := by
  rw [sub_tt] at hr
  obtain ⟨gb, bb⟩ := ht np2 (np2 + 1) ⟨np2 + 2, c.nt + 2⟩ (by omega) (by simp only; omega) (by simp only; omega)
  simp only at hr
  generalize body t np2 (np2 + 1) ⟨np2 + 2, c.nt + 2⟩ = b at gb bb hr
  have hnp : c.np ≤ np1 ∧ np1 ≤ np2 := by cases st <;> cases en <;> simp at hn1 hn2 <;> omega
  have a := gb.np; have a' := gb.nt
  simp only at a a'
  have nil : ∀ t, t < c.nt + 2 → b.1.pre t = [] ∧ b.1.post t = [] := fun t h =>
    ⟨gb.pre_nil (.inl h) (by simp), gb.post_nil (.inl h) (by simp)⟩
  have n1 := nil c.nt (by omega)
  have n2 := nil (c.nt + 1) (by omega)
  have n3 := nil sp (by omega)
  have n4 := nil jn (by omega)
  have q1 : sp ≠ c.nt := by omega
  have q2 : jn ≠ c.nt := by omega
  have q3 : sp ≠ c.nt + 1 := by omega
  have q4 : jn ≠ c.nt + 1 := by omega
  let g0 : Gr α := ({ trans := [(c.nt, none), (c.nt + 1, none)] } : Gr α) ++ (s ++ (e ++ (({ places := [np2], tp := [(c.nt, np2)] } : Gr α) ++
    ({ places := [np2 + 1], pt := [(np2 + 1, c.nt + 1)] } : Gr α))))
  have e0 : g = g0 ++ b.1 := by
    rw [hg, hr]
    simp only [g0, Gr.append_assoc]
  have hst : ∀ (b : Bool) (x y : Gr α), (if b = true then x else y) = if b then x else y := fun _ _ _ => rfl
  have gg : Good g c b.2 [sp, jn] := by
    rw [e0]
    refine ctl_good gb rfl (by simp only; omega) ?_ ?_ ?_ ?_
    · cases st <;> cases en <;> simp [g0, hs, he]
    · intro p
      cases st <;> cases en <;> simp at hn1 hn2 <;> simp [g0, hs, he] <;> omega
    · cases st <;> cases en <;> simp [g0, hs, he]
    · cases st <;> cases en <;> simp [g0, hs, he]
  have k1 : g.pre c.nt = if st then [c.np] else [] := by
    rw [e0]
    cases st <;> cases en <;> simp [g0, hs, he, n1.1, q1, q2]
  have k2 : g.post c.nt = [np2] := by
    rw [e0]
    cases st <;> cases en <;> simp [g0, hs, he, n1.2, q1, q2]
  have k3 : g.pre (c.nt + 1) = [np2 + 1] := by
    rw [e0]
    cases st <;> cases en <;> simp [g0, hs, he, n2.1, q3, q4]
  have k4 : g.post (c.nt + 1) = if en then [np1] else [] := by
    rw [e0]
    cases st <;> cases en <;> simp [g0, hs, he, n2.2, q3, q4]
  have k5 : g.pre sp = [] := by
    rw [e0]
    cases st <;> cases en <;> simp [g0, hs, he, n3.1, q1.symm, q3.symm, h0.symm]
  have k6 : g.post sp = if st then [c.np] else [] := by
    rw [e0]
    cases st <;> cases en <;> simp [g0, hs, he, n3.2, q1.symm, q3.symm, h0.symm]
  have k7 : g.pre jn = if en then [np1] else [] := by
    rw [e0]
    cases st <;> cases en <;> simp [g0, hs, he, n4.1, q2.symm, q4.symm, h0]
  have k8 : g.post jn = [] := by
    rw [e0]
    cases st <;> cases en <;> simp [g0, hs, he, n4.2, q2.symm, q4.symm, h0]
  have kt : g.trans = (c.nt, none) :: (c.nt + 1, none) :: b.1.trans := by
    rw [e0]
    cases st <;> cases en <;> simp [g0, hs, he]
  have kin : ∀ x ∈ b.1.trans, g.pre x.1 = b.1.pre x.1 ∧ g.post x.1 = b.1.post x.1 := by
    intro x hx
    have h := gb.mem hx
    simp only at h
    have r1 : c.nt ≠ x.1 := by omega
    have r2 : c.nt + 1 ≠ x.1 := by omega
    have r3 : sp ≠ x.1 := by omega
    have r4 : jn ≠ x.1 := by omega
    rw [e0]
    constructor <;> (cases st <;> cases en <;> simp [g0, hs, he, r1, r2, r3, r4])
  have hr2 : r.2.1 = b.2 := by rw [hr]
  rw [hr2]
  refine ⟨⟨c.nt, c.nt + 1, if st then some c.np else none, if en then some np1 else none, b.1.trans,
    ⟨np2, np2 + 1, np2 + 2, b.2.np, b.1.trs, t.lang⟩⟩, ?_, gg, ?_, rfl, kt, k5, ?_, ?_, k8, ?_, ?_⟩
  · refine ⟨rfl, rfl, a', fun x hx => gb.mem hx, ?_, ?_, ?_, by simp only; omega, rfl, rfl, rfl, bb⟩
    · cases st <;> cases en <;> simp at hn1 hn2 <;> simp <;> omega
    · cases st <;> cases en <;> simp at hn1 hn2 <;> simp <;> omega
    · cases st <;> cases en <;> simp at hn1 hn2 <;> simp <;> omega
  · refine ⟨?_, k2, k3, ?_, ?_⟩
    · rw [k1]; cases st <;> rfl
    · rw [k4]; cases en <;> rfl
    · exact (List.map_congr_left fun x hx => by rw [(kin x hx).1, (kin x hx).2]).symm
  · rw [k6]; cases st <;> rfl
  · rw [k7]; cases en <;> rfl
  · cases st <;> rfl
  · cases en <;> rfl

/-- all children -/
theorem kids_good {starts ends : List Nat} {sp jn : Nat} {ts : List (Powl α)} (hs : ∀ t ∈ ts, Spec t) (h0 : sp ≠ jn) :
    ∀ (k : Nat) (c : Cnt), sp < c.nt → jn < c.nt →
    ∃ ds : List (Desc α), (bodyKids starts ends sp jn ts k c).2.2 = ds.map (fun d => (d.iT, d.fT)) ∧
      Good (bodyKids starts ends sp jn ts k c).1 c (bodyKids starts ends sp jn ts k c).2.1 [sp, jn] ∧
      Chain ds c (bodyKids starts ends sp jn ts k c).2.1 ∧
      (∀ d ∈ ds, Arcs (bodyKids starts ends sp jn ts k c).1 d) ∧
      (bodyKids starts ends sp jn ts k c).1.trans = (ds.flatMap fun d => (d.iT, none) :: (d.fT, none) :: d.inner) ∧
      (bodyKids starts ends sp jn ts k c).1.pre sp = [] ∧ (bodyKids starts ends sp jn ts k c).1.post sp = ds.filterMap Desc.sI ∧
      (bodyKids starts ends sp jn ts k c).1.pre jn = ds.filterMap Desc.eF ∧ (bodyKids starts ends sp jn ts k c).1.post jn = [] ∧
      ds.map (fun d => d.kid.L) = ts.map Powl.lang ∧
      (∀ j d, ds[j]? = some d → (d.sI.isSome = starts.contains (k + j) ∧ d.eF.isSome = ends.contains (k + j))) := by
  induction ts with
  | nil =>
    intro k c _ _
    refine ⟨[], ?_⟩
    simp only [bodyKids]
    refine ⟨rfl, Good.empty c _, .nil c, by simp, rfl, rfl, rfl, rfl, rfl, rfl, by simp⟩
  | cons t ts ih =>
    intro k c h1 h2
    rw [bodyKids]
    simp only
    generalize hr : sub (body t) (.trans c.nt) (some (.trans (c.nt + 1))) _ = r
    obtain ⟨d, o1, o2, o3, o4, o5, o6, o7, o8, o9, o10, o11⟩ := kid_good (hs t (by simp)) (starts.contains k) (ends.contains k) sp jn c h1 h2 h0
      _ _ rfl rfl _ _ rfl rfl r hr.symm _ rfl
    have a := o1.nt
    obtain ⟨ds, p1, p2, p3, p4, p5, p6, p7, p8, p9, p10, p11⟩ := ih (fun t h => hs t (by simp [h])) (k + 1) r.2.1 (by omega) (by omega)
    generalize bodyKids starts ends sp jn ts (k + 1) r.2.1 = q at *
    generalize hs : (if starts.contains k = true then ({ places := [c.np], pt := [(c.np, c.nt)], tp := [(sp, c.np)] } : Gr α) else {}) = s at *
    generalize he : (if ends.contains k = true then
          ({ places := [if starts.contains k = true then c.np + 1 else c.np], pt := [(if starts.contains k = true then c.np + 1 else c.np, jn)],
              tp := [(c.nt + 1, if starts.contains k = true then c.np + 1 else c.np)] } : Gr α)
        else {}) = e at *
    have eq : ({ trans := [(c.nt, none), (c.nt + 1, none)] } ++ (s ++ (e ++ (r.1 ++ q.1))) : Gr α) =
        ({ trans := [(c.nt, none), (c.nt + 1, none)] } ++ (s ++ (e ++ r.1))) ++ q.1 := by simp only [Gr.append_assoc]
    rw [eq]
    generalize ({ trans := [(c.nt, none), (c.nt + 1, none)] } ++ (s ++ (e ++ r.1)) : Gr α) = g at *
    refine ⟨d :: ds, ?_, o2.append p2, .cons o1 p3, ?_, ?_, ?_, ?_, ?_, ?_, ?_, ?_⟩
    · rw [p1]; simp [o1.iT, o1.fT]
    · intro d' hd
      rcases List.mem_cons.1 hd with rfl | hd
      · refine o3.append fun t ht => ?_
        have := o1.num ht
        exact ⟨p2.pre_nil (.inl (by omega)) (by simp; omega), p2.post_nil (.inl (by omega)) (by simp; omega)⟩
      · refine (p4 d' hd).prepend fun t ht => ?_
        obtain ⟨c1, c2, u1, u2, u3, _⟩ := p3.mem hd
        have := u1.num ht
        exact ⟨o2.pre_nil (.inr (by omega)) (by simp; omega), o2.post_nil (.inr (by omega)) (by simp; omega)⟩
    · rw [Gr.append_trans, o5, p5]; simp
    · rw [Gr.pre_append, o6, p6]; rfl
    · rw [Gr.post_append, o7, p7]; cases h : d.sI <;> simp [List.filterMap_cons, h]
    · rw [Gr.pre_append, o8, p8]; cases h : d.eF <;> simp [List.filterMap_cons, h]
    · rw [Gr.post_append, o9, p9]; rfl
    · simp [o4, p10]
    · intro j d' hd
      cases j with
      | zero => simp at hd; subst hd; exact ⟨o10, o11⟩
      | succ j =>
        have := p11 j d' (by simpa using hd)
        rw [show k + (j + 1) = k + 1 + j by omega]; exact this

end PowlNet
end Verif
