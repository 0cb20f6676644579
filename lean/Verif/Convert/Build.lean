import Verif.Convert.Model
import Verif.Convert.BlockOr
/-
The net built by `recursively_add_tree` is a block that realises the language of the tree (C14, before reduction).
-/
namespace Verif
namespace Conv
open Sys Lang
variable {α : Type}

/-- the transitions of a net as seen by the token game -/
def Gr.trs (g : Gr α) : List (Tr α) := g.trans.map fun e => ⟨g.pre e.1, g.post e.1, e.2⟩

namespace Gr
variable (g h : Gr α)

theorem append_def : g ++ h = ⟨g.places ++ h.places, g.trans ++ h.trans, g.pt ++ h.pt, g.tp ++ h.tp⟩ := rfl
@[simp] theorem append_places : (g ++ h).places = g.places ++ h.places := rfl
@[simp] theorem append_trans : (g ++ h).trans = g.trans ++ h.trans := rfl
@[simp] theorem append_pt : (g ++ h).pt = g.pt ++ h.pt := rfl
@[simp] theorem append_tp : (g ++ h).tp = g.tp ++ h.tp := rfl
@[simp] theorem nil_append : ({} : Gr α) ++ g = g := by simp [append_def]
@[simp] theorem append_nil : g ++ ({} : Gr α) = g := by simp [append_def]
theorem append_assoc (k : Gr α) : g ++ h ++ k = g ++ (h ++ k) := by simp [append_def]
@[simp] theorem pre_append (t : Nat) : (g ++ h).pre t = g.pre t ++ h.pre t := by simp [Gr.pre]
@[simp] theorem post_append (t : Nat) : (g ++ h).post t = g.post t ++ h.post t := by simp [Gr.post]

@[simp] theorem pre_mk (pl : List Nat) (tr : List (Nat × Option α)) (pt tp : List (Nat × Nat)) (t : Nat) :
    Gr.pre ⟨pl, tr, pt, tp⟩ t = (pt.filter fun a => a.2 == t).map Prod.fst := rfl
@[simp] theorem post_mk (pl : List Nat) (tr : List (Nat × Option α)) (pt tp : List (Nat × Nat)) (t : Nat) :
    Gr.post ⟨pl, tr, pt, tp⟩ t = (tp.filter fun a => a.1 == t).map Prod.snd := rfl

theorem trs_append : (g ++ h).trs = (g.trans.map fun e => ⟨g.pre e.1 ++ h.pre e.1, g.post e.1 ++ h.post e.1, e.2⟩) ++
    h.trans.map fun e => ⟨g.pre e.1 ++ h.pre e.1, g.post e.1 ++ h.post e.1, e.2⟩ := by
  simp [trs]

@[simp] theorem trs_places (l : List Nat) : (({ places := l } : Gr α) ++ h).trs = h.trs := by
  simp [trs, Gr.pre, Gr.post]

end Gr

/-- what a part of the construction adds: the transitions numbered `c.nt..c'.nt-1`, the places `c.np..c'.np-1`, arcs of these
transitions and of the transitions in `ext` -/
structure Good (g : Gr α) (c c' : Cnt) (ext : List Nat) : Prop where
  np : c.np ≤ c'.np
  nt : c.nt ≤ c'.nt
  trans : ∀ t, t ∈ g.trans.map Prod.fst ↔ c.nt ≤ t ∧ t < c'.nt
  nodup : (g.trans.map Prod.fst).Nodup
  pt : ∀ a ∈ g.pt, (c.nt ≤ a.2 ∧ a.2 < c'.nt) ∨ a.2 ∈ ext
  tp : ∀ a ∈ g.tp, (c.nt ≤ a.1 ∧ a.1 < c'.nt) ∨ a.1 ∈ ext
  places : ∀ p, p ∈ g.places ↔ Inner c.np c'.np p

namespace Good
variable {g g1 g2 : Gr α} {c c1 c2 c' : Cnt} {ext : List Nat}

theorem mem (h : Good g c c' ext) {e : Nat × Option α} (he : e ∈ g.trans) : c.nt ≤ e.1 ∧ e.1 < c'.nt :=
  (h.trans e.1).1 (List.mem_map_of_mem he)

theorem empty (c : Cnt) (ext : List Nat) : Good ({} : Gr α) c c ext :=
  ⟨Nat.le_refl _, Nat.le_refl _, by simp, by simp, by simp, by simp, by simp [Inner]⟩

theorem pre_nil (h : Good g c c' ext) {t : Nat} (h1 : t < c.nt ∨ c'.nt ≤ t) (h2 : t ∉ ext) : g.pre t = [] := by
  simp only [Gr.pre, List.map_eq_nil_iff, List.filter_eq_nil_iff, beq_iff_eq]
  intro a ha e
  rcases h.pt a ha with h | h
  · omega
  · exact h2 (e ▸ h)

theorem post_nil (h : Good g c c' ext) {t : Nat} (h1 : t < c.nt ∨ c'.nt ≤ t) (h2 : t ∉ ext) : g.post t = [] := by
  simp only [Gr.post, List.map_eq_nil_iff, List.filter_eq_nil_iff, beq_iff_eq]
  intro a ha e
  rcases h.tp a ha with h | h
  · omega
  · exact h2 (e ▸ h)

theorem ext_mono (h : Good g c c' ext) {ext' : List Nat} (he : ∀ t ∈ ext, t ∈ ext') : Good g c c' ext' :=
  { h with pt := fun a ha => (h.pt a ha).imp id (he _), tp := fun a ha => (h.tp a ha).imp id (he _) }

theorem append (h1 : Good g1 c c1 ext) (h2 : Good g2 c1 c2 ext) : Good (g1 ++ g2) c c2 ext := by
  have a1 := h1.np; have a2 := h1.nt; have a3 := h2.np; have a4 := h2.nt
  refine ⟨by omega, by omega, ?_, ?_, ?_, ?_, ?_⟩
  · intro t
    rw [Gr.append_trans, List.map_append, List.mem_append, h1.trans, h2.trans]
    omega
  · rw [Gr.append_trans, List.map_append]
    refine List.nodup_append.2 ⟨h1.nodup, h2.nodup, ?_⟩
    intro a ha b hb
    have := (h1.trans a).1 ha; have := (h2.trans b).1 hb
    omega
  · intro a ha
    rcases List.mem_append.1 ha with ha | ha
    · rcases h1.pt a ha with h | h
      · left; omega
      · exact .inr h
    · rcases h2.pt a ha with h | h
      · left; omega
      · exact .inr h
  · intro a ha
    rcases List.mem_append.1 ha with ha | ha
    · rcases h1.tp a ha with h | h
      · left; omega
      · exact .inr h
    · rcases h2.tp a ha with h | h
      · left; omega
      · exact .inr h
  · intro p
    rw [Gr.append_places, List.mem_append, h1.places, h2.places]
    unfold Inner; omega

theorem trs_append (h1 : Good g1 c c1 ext) (h2 : Good g2 c1 c2 ext) (he : ∀ t ∈ ext, t < c.nt) :
    (g1 ++ g2).trs = g1.trs ++ g2.trs := by
  have a2 := h1.nt; have a4 := h2.nt
  rw [Gr.trs_append]
  congr 1
  · refine List.map_congr_left fun e hm => ?_
    have := h1.mem hm
    have hn : e.1 ∉ ext := fun h => by have := he _ h; omega
    rw [h2.pre_nil (.inl (by omega)) hn, h2.post_nil (.inl (by omega)) hn]
    simp
  · refine List.map_congr_left fun e hm => ?_
    have := h2.mem hm
    have hn : e.1 ∉ ext := fun h => by have := he _ h; omega
    rw [h1.pre_nil (.inr (by omega)) hn, h1.post_nil (.inr (by omega)) hn]
    simp

/-- an additional place and arcs of other transitions -/
theorem cons_place {h : Gr α} {np nt : Nat} (hg : Good g ⟨np + 1, nt⟩ c' ext) (hp : h.places = [np]) (ht : h.trans = [])
    (hpt : ∀ a ∈ h.pt, a.2 ∈ ext) (htp : ∀ a ∈ h.tp, a.1 ∈ ext) : Good (h ++ g) ⟨np, nt⟩ c' ext := by
  have a1 := hg.np; have a2 := hg.nt
  simp only at a1 a2
  refine ⟨by simp only; omega, a2, ?_, ?_, ?_, ?_, ?_⟩
  · simpa [ht] using hg.trans
  · simpa [ht] using hg.nodup
  · intro a ha
    rcases List.mem_append.1 ha with ha | ha
    · exact .inr (hpt a ha)
    · exact hg.pt a ha
  · intro a ha
    rcases List.mem_append.1 ha with ha | ha
    · exact .inr (htp a ha)
    · exact hg.tp a ha
  · intro p
    rw [Gr.append_places, List.mem_append, hg.places, hp]
    simp only [List.mem_singleton, Inner]; omega

end Good

/-! ### the calls -/

theorem sub_pp (k : Nat → Nat → Cnt → Gr α × Cnt) (i o : Nat) (c : Cnt) :
    sub k (.place i) (some (.place o)) c = ((k i o c).1, (k i o c).2, o) := by
  simp [sub, enter, leave]

theorem sub_pn (k : Nat → Nat → Cnt → Gr α × Cnt) (i : Nat) (c : Cnt) :
    sub k (.place i) none c = ({ places := [c.np] } ++ (k i c.np ⟨c.np + 1, c.nt⟩).1, (k i c.np ⟨c.np + 1, c.nt⟩).2, c.np) := by
  simp [sub, enter, leave]

theorem sub_tt (k : Nat → Nat → Cnt → Gr α × Cnt) (s j : Nat) (c : Cnt) :
    sub k (.trans s) (some (.trans j)) c =
      ({ places := [c.np], tp := [(s, c.np)] } ++ ({ places := [c.np + 1], pt := [(c.np + 1, j)] } ++
        (k c.np (c.np + 1) ⟨c.np + 2, c.nt⟩).1), (k c.np (c.np + 1) ⟨c.np + 2, c.nt⟩).2, c.np + 1) := by
  simp [sub, enter, leave]

/-- trees on which the conversion is defined and exact: every inner node has a child, loops and ORs have at least two -/
inductive WellFormed : PT α → Prop
  | leaf (l : Option α) : WellFormed (.leaf l)
  | node (op : Op) (cs : List (PT α)) : cs ≠ [] → ((op = .loop ∨ op = .or) → 2 ≤ cs.length) → (∀ c ∈ cs, WellFormed c) →
      WellFormed (.node op cs)

/-- what `body` does for a tree -/
def Spec (t : PT α) : Prop := ∀ ip fp c, ip ≠ fp → ip < c.np → fp < c.np →
  Good (body t ip fp c).1 c (body t ip fp c).2 [] ∧ Block (body t ip fp c).1.trs ip fp c.np (body t ip fp c).2.np t.lang

theorem spec_leaf (l : Option α) : Spec (.leaf l) := by
  intro ip fp c hne h1 h2
  constructor
  · simp only [body]
    refine ⟨Nat.le_refl _, by simp, ?_, by simp, by simp, by simp, ?_⟩
    · intro t
      simp only [List.map_cons, List.map_nil, List.mem_singleton]
      omega
    · intro p
      simp only [List.not_mem_nil, Inner, false_iff]; omega
  · have e : (body (.leaf l) ip fp c).1.trs = [⟨[ip], [fp], l⟩] := by
      simp [body, Gr.trs, Gr.pre, Gr.post]
    rw [e]
    have := block_leaf l ip fp c.np h1 h2 hne
    refine this.congr fun w => ?_
    cases l <;> simp [eps]

theorem spec_xor {ts : List (PT α)} (hs : ∀ t ∈ ts, Spec t) (hne : ts ≠ []) (ip fp : Nat) (c : Cnt) (h0 : ip ≠ fp)
    (h1 : ip < c.np) (h2 : fp < c.np) :
    Good (bodyXor ts ip fp c).1 c (bodyXor ts ip fp c).2 [] ∧
    Block (bodyXor ts ip fp c).1.trs ip fp c.np (bodyXor ts ip fp c).2.np (xorL (ts.map PT.lang)) := by
  induction ts generalizing c with
  | nil => exact absurd rfl hne
  | cons t ts ih =>
    simp only [bodyXor, sub_pp]
    obtain ⟨g1, b1⟩ := hs t (by simp) ip fp c h0 h1 h2
    cases ts with
    | nil => simpa [bodyXor] using ⟨g1, b1⟩
    | cons t' ts =>
      have a := g1.np
      obtain ⟨g2, b2⟩ := ih (fun t h => hs t (by simp [h])) (by simp) (body t ip fp c).2 (by omega) (by omega)
      refine ⟨g1.append g2, ?_⟩
      rw [g1.trs_append g2 (by simp)]
      refine (block_xor b1 b2 rfl).congr fun w => ?_
      simp [xorL]

theorem spec_seq {ts : List (PT α)} (hs : ∀ t ∈ ts, Spec t) (hne : ts ≠ []) (ip fp : Nat) (c : Cnt) (h0 : ip ≠ fp)
    (h1 : ip < c.np) (h2 : fp < c.np) :
    Good (bodySeq ts ip fp c).1 c (bodySeq ts ip fp c).2 [] ∧
    Block (bodySeq ts ip fp c).1.trs ip fp c.np (bodySeq ts ip fp c).2.np (seqL (ts.map PT.lang)) := by
  induction ts generalizing c ip with
  | nil => exact absurd rfl hne
  | cons t ts ih =>
    cases ts with
    | nil =>
      obtain ⟨g1, b1⟩ := hs t (by simp) ip fp c h0 h1 h2
      simpa [bodySeq, sub_pp] using ⟨g1, b1⟩
    | cons t' ts =>
      rw [bodySeq]
      simp only [List.isEmpty_cons, Bool.false_eq_true, if_false, sub_pn]
      obtain ⟨g1, b1⟩ := hs t (by simp) ip c.np ⟨c.np + 1, c.nt⟩ (by omega) (by simp only; omega) (by simp only; omega)
      have a := g1.np
      simp only at a
      obtain ⟨g2, b2⟩ := ih (fun t h => hs t (by simp [h])) (by simp) c.np (body t ip c.np ⟨c.np + 1, c.nt⟩).2 (by omega)
        (by omega) (by omega)
      have g1' : Good (({ places := [c.np] } : Gr α) ++ (body t ip c.np ⟨c.np + 1, c.nt⟩).1) c _ [] :=
        g1.cons_place rfl rfl (by simp) (by simp)
      refine ⟨g1'.append g2, ?_⟩
      rw [g1'.trs_append g2 (by simp), Gr.trs_places]
      exact block_seq b1 b2 h0 h1 h2 rfl rfl

theorem par_list {ts : List (PT α)} (hs : ∀ t ∈ ts, Spec t) (sp jn : Nat) (c : Cnt) (h1 : sp < c.nt) (h2 : jn < c.nt) (h0 : sp ≠ jn) :
    ∃ is os, Good (bodyPar ts sp jn c).1 c (bodyPar ts sp jn c).2 [sp, jn] ∧
      Multi (bodyPar ts sp jn c).1.trs is os c.np (bodyPar ts sp jn c).2.np (parL (ts.map PT.lang)) ∧
      (bodyPar ts sp jn c).1.pre sp = [] ∧ (bodyPar ts sp jn c).1.post sp = is ∧
      (bodyPar ts sp jn c).1.pre jn = os ∧ (bodyPar ts sp jn c).1.post jn = [] ∧ os.length = ts.length := by
  induction ts generalizing c with
  | nil =>
    refine ⟨[], [], ?_, ?_, ?_⟩
    · simpa [bodyPar] using Good.empty c _
    · simpa [bodyPar, Gr.trs, parL] using multi_nil c.np
    · simp [bodyPar, Gr.pre, Gr.post]
  | cons t ts ih =>
    simp only [bodyPar, sub_tt]
    obtain ⟨gb, bb⟩ := hs t (by simp) c.np (c.np + 1) ⟨c.np + 2, c.nt⟩ (by omega) (by simp only; omega) (by simp only; omega)
    generalize hb : body t c.np (c.np + 1) ⟨c.np + 2, c.nt⟩ = b at gb bb ⊢
    have a := gb.np; have a' := gb.nt
    simp only at a a'
    obtain ⟨is, os, g2, m2, e1, e2, e3, e4, e5⟩ := ih (fun t h => hs t (by simp [h])) b.2 (by omega) (by omega)
    have ge := gb.ext_mono (ext' := [sp, jn]) (by simp)
    have g1 : Good (({ places := [c.np], tp := [(sp, c.np)] } : Gr α) ++ (({ places := [c.np + 1], pt := [(c.np + 1, jn)] } : Gr α) ++ b.1))
        c b.2 [sp, jn] :=
      Good.cons_place (np := c.np) (Good.cons_place (np := c.np + 1) ge rfl rfl (by simp) (by simp)) rfl rfl (by simp) (by simp)
    have hsp : b.1.pre sp = [] ∧ b.1.post sp = [] := ⟨gb.pre_nil (.inl h1) (by simp), gb.post_nil (.inl h1) (by simp)⟩
    have hjn : b.1.pre jn = [] ∧ b.1.post jn = [] := ⟨gb.pre_nil (.inl h2) (by simp), gb.post_nil (.inl h2) (by simp)⟩
    have et : ((({ places := [c.np], tp := [(sp, c.np)] } : Gr α) ++ (({ places := [c.np + 1], pt := [(c.np + 1, jn)] } : Gr α) ++ b.1))).trs
        = b.1.trs := by
      simp only [Gr.trs, Gr.append_trans, List.nil_append]
      refine List.map_congr_left fun e he => ?_
      have h := gb.mem he
      simp only at h
      have n1 : sp ≠ e.1 := by omega
      have n2 : jn ≠ e.1 := by omega
      simp [Gr.pre, Gr.post, n1, n2]
    refine ⟨c.np :: is, (c.np + 1) :: os, g1.append g2, ?_, ?_, ?_, ?_, ?_, by simp [e5]⟩
    · rw [g1.trs_append g2 (by simp; omega), et]
      have m1 := bb.multi (a := c.np) rfl rfl rfl
      exact multi_append m1 m2
    · simp [e1, hsp.1, Ne.symm h0]
    · simp [e2, hsp.2]
    · simp [e3, hjn.1]
    · simp [e4, hjn.2, h0]

/-- a node: two control transitions and what belongs to the children -/
theorem node_good {ctl g : Gr α} {c c' : Cnt} {k : Nat} (hg : Good g ⟨c.np + k, c.nt + 2⟩ c' [c.nt, c.nt + 1])
    (hp : ctl.places = List.range' c.np k) (ht : ctl.trans = [(c.nt, none), (c.nt + 1, none)])
    (hpt : ∀ a ∈ ctl.pt, a.2 = c.nt ∨ a.2 = c.nt + 1) (htp : ∀ a ∈ ctl.tp, a.1 = c.nt ∨ a.1 = c.nt + 1) :
    Good (ctl ++ g) c c' [] ∧
    (ctl ++ g).trs = ⟨ctl.pre c.nt ++ g.pre c.nt, ctl.post c.nt ++ g.post c.nt, none⟩ ::
      ⟨ctl.pre (c.nt + 1) ++ g.pre (c.nt + 1), ctl.post (c.nt + 1) ++ g.post (c.nt + 1), none⟩ :: g.trs := by
  have a1 := hg.np; have a2 := hg.nt
  simp only at a1 a2
  refine ⟨⟨by omega, by omega, ?_, ?_, ?_, ?_, ?_⟩, ?_⟩
  · intro t
    rw [Gr.append_trans, List.map_append, List.mem_append, hg.trans, ht]
    simp only [List.map_cons, List.map_nil, List.mem_cons, List.not_mem_nil, or_false]
    omega
  · rw [Gr.append_trans, List.map_append]
    refine List.nodup_append.2 ⟨by simp [ht], hg.nodup, ?_⟩
    intro a ha b hb
    have := (hg.trans b).1 hb
    simp only [ht, List.map_cons, List.map_nil, List.mem_cons, List.not_mem_nil, or_false] at ha this
    omega
  · intro a ha
    left
    rcases List.mem_append.1 ha with ha | ha
    · have := hpt a ha; omega
    · have := hg.pt a ha
      simp only [List.mem_cons, List.not_mem_nil, or_false] at this
      omega
  · intro a ha
    left
    rcases List.mem_append.1 ha with ha | ha
    · have := htp a ha; omega
    · have := hg.tp a ha
      simp only [List.mem_cons, List.not_mem_nil, or_false] at this
      omega
  · intro p
    rw [Gr.append_places, List.mem_append, hg.places, hp, List.mem_range'_1]
    simp only [Inner]; omega
  · rw [Gr.trs_append, ht]
    simp only [List.map_cons, List.map_nil, List.cons_append, List.nil_append]
    congr 2
    refine List.map_congr_left fun e he => ?_
    have h := hg.mem he
    simp only at h
    have e1 : ctl.pre e.1 = [] := by
      simp only [Gr.pre, List.map_eq_nil_iff, List.filter_eq_nil_iff, beq_iff_eq]
      intro a ha e'
      have := hpt a ha; omega
    have e2 : ctl.post e.1 = [] := by
      simp only [Gr.post, List.map_eq_nil_iff, List.filter_eq_nil_iff, beq_iff_eq]
      intro a ha e'
      have := htp a ha; omega
    rw [e1, e2]; rfl

theorem spec_par {ts : List (PT α)} (hs : ∀ t ∈ ts, Spec t) (hne : ts ≠ []) : Spec (.node .par ts) := by
  intro ip fp c h0 h1 h2
  obtain ⟨is, os, g, m, e1, e2, e3, e4, e5⟩ := par_list hs c.nt (c.nt + 1) ⟨c.np, c.nt + 2⟩ (by simp only; omega) (by simp only; omega)
    (by omega)
  simp only [body]
  obtain ⟨hg, ht⟩ := node_good (k := 0) (c := c) (ctl := ⟨[], [(c.nt, none), (c.nt + 1, none)], [(ip, c.nt)],
    [(c.nt + 1, fp)]⟩) g (by simp) rfl (by simp) (by simp)
  refine ⟨hg, ?_⟩
  rw [ht, e1, e2, e3, e4]
  have hos : os ≠ [] := by
    intro h; rw [h] at e5; exact hne (List.length_eq_zero_iff.1 e5.symm)
  have := block_par m h1 h2 h0 hos
  simpa [parTr, PT.lang_node, PT.opLang] using this

theorem inter_list {ts : List (PT α)} (hs : ∀ t ∈ ts, Spec t) (sp jn ctl : Nat) (c : Cnt) (h1 : sp < c.nt) (h2 : jn < c.nt)
    (h0 : sp ≠ jn) (hc : ctl < c.np) :
    ∃ ks : List (IKid α), Good (bodyInter ts sp jn ctl c).1 c (bodyInter ts sp jn ctl c).2 [sp, jn] ∧
      IKids ks c.np (bodyInter ts sp jn ctl c).2.np ∧ ks.map IKid.L = ts.map PT.lang ∧
      (bodyInter ts sp jn ctl c).1.trs = (ks.flatMap fun k => k.iT ctl :: k.fT ctl :: k.T) ∧
      (bodyInter ts sp jn ctl c).1.pre sp = [] ∧ (bodyInter ts sp jn ctl c).1.post sp = ks.map IKid.pI ∧
      (bodyInter ts sp jn ctl c).1.pre jn = ks.map IKid.pF ∧ (bodyInter ts sp jn ctl c).1.post jn = [] := by
  induction ts generalizing c with
  | nil =>
    refine ⟨[], ?_, ?_, ?_⟩
    · simpa [bodyInter] using Good.empty c _
    · simpa [bodyInter] using IKids.nil _
    · simp [bodyInter, Gr.trs]
  | cons t ts ih =>
    simp only [bodyInter, sub_tt]
    obtain ⟨gb, bb⟩ := hs t (by simp) (c.np + 2) (c.np + 3) ⟨c.np + 4, c.nt + 2⟩ (by omega) (by simp only; omega)
      (by simp only; omega)
    generalize hb : body t (c.np + 2) (c.np + 3) ⟨c.np + 4, c.nt + 2⟩ = b at gb bb ⊢
    have a := gb.np; have a' := gb.nt
    simp only at a a'
    obtain ⟨ks, g2, hks, hL, ht, e1, e2, e3, e4⟩ := ih (fun t h => hs t (by simp [h])) b.2 (by omega) (by omega) (by omega)
    let k : IKid α := ⟨c.np, c.np + 1, c.np + 2, c.np + 3, c.np + 4, b.2.np, b.1.trs, t.lang⟩
    let g0 : Gr α := ⟨[c.np, c.np + 1, c.np + 2, c.np + 3], [(c.nt, none), (c.nt + 1, none)],
      [(c.np, c.nt), (c.np + 1, jn), (ctl, c.nt), (c.np + 3, c.nt + 1)],
      [(sp, c.np), (c.nt + 1, c.np + 1), (c.nt + 1, ctl), (c.nt, c.np + 2)]⟩
    have eg : ((⟨[c.np, c.np + 1], [(c.nt, none), (c.nt + 1, none)],
        [(c.np, c.nt), (c.np + 1, jn), (ctl, c.nt)], [(sp, c.np), (c.nt + 1, c.np + 1), (c.nt + 1, ctl)]⟩ : Gr α) ++
        (({ places := [c.np + 2], tp := [(c.nt, c.np + 2)] } : Gr α) ++
        (({ places := [c.np + 3], pt := [(c.np + 3, c.nt + 1)] } : Gr α) ++ b.1) ++ (bodyInter ts sp jn ctl b.2).1)) =
        (g0 ++ b.1) ++ (bodyInter ts sp jn ctl b.2).1 := by
      simp [Gr.append_def, g0]
    have n1 : sp ≠ c.nt := by omega
    have n2 : jn ≠ c.nt := by omega
    have n3 : sp ≠ c.nt + 1 := by omega
    have n4 : jn ≠ c.nt + 1 := by omega
    have bnil : ∀ t, t < c.nt + 2 → b.1.pre t = [] ∧ b.1.post t = [] := fun t h =>
      ⟨gb.pre_nil (.inl h) (by simp), gb.post_nil (.inl h) (by simp)⟩
    have g1 : Good (g0 ++ b.1) c b.2 [sp, jn] := by
      refine ⟨by omega, by omega, ?_, ?_, ?_, ?_, ?_⟩
      · intro t
        rw [Gr.append_trans, List.map_append, List.mem_append, gb.trans]
        simp only [g0, List.map_cons, List.map_nil, List.mem_cons, List.not_mem_nil, or_false]
        omega
      · rw [Gr.append_trans, List.map_append]
        refine List.nodup_append.2 ⟨by simp [g0], gb.nodup, ?_⟩
        intro x hx y hy
        have := (gb.trans y).1 hy
        simp only [g0, List.map_cons, List.map_nil, List.mem_cons, List.not_mem_nil, or_false] at hx this
        omega
      · intro x hx
        rcases List.mem_append.1 hx with hx | hx
        · simp only [g0, List.mem_cons, List.not_mem_nil, or_false] at hx
          rcases hx with rfl | rfl | rfl | rfl <;> simp <;> omega
        · rcases gb.pt x hx with h | h
          · simp only at h; left; omega
          · simp at h
      · intro x hx
        rcases List.mem_append.1 hx with hx | hx
        · simp only [g0, List.mem_cons, List.not_mem_nil, or_false] at hx
          rcases hx with rfl | rfl | rfl | rfl <;> simp <;> omega
        · rcases gb.tp x hx with h | h
          · simp only at h; left; omega
          · simp at h
      · intro p
        rw [Gr.append_places, List.mem_append, gb.places]
        simp only [g0, List.mem_cons, List.not_mem_nil, or_false, Inner]; omega
    have et : (g0 ++ b.1).trs = k.iT ctl :: k.fT ctl :: k.T := by
      rw [Gr.trs_append]
      simp only [g0, List.map_cons, List.map_nil, List.cons_append, List.nil_append, IKid.iT, IKid.fT, k]
      obtain ⟨p1, p2⟩ := bnil c.nt (by omega)
      obtain ⟨p3, p4⟩ := bnil (c.nt + 1) (by omega)
      rw [p1, p2, p3, p4]
      congr 1
      · simp [n1, n2]
      · congr 1
        · simp [n3, n4]
        · refine List.map_congr_left fun e he => ?_
          have h := gb.mem he
          simp only at h
          have q1 : sp ≠ e.1 := by omega
          have q2 : jn ≠ e.1 := by omega
          have q3 : c.nt ≠ e.1 := by omega
          have q4 : c.nt + 1 ≠ e.1 := by omega
          simp [q1, q2, q3, q4]
    rw [eg]
    refine ⟨k :: ks, g1.append g2, ?_, by simp [k, hL], ?_, ?_, ?_, ?_, ?_⟩
    · exact .cons rfl rfl rfl rfl rfl bb hks
    · rw [g1.trs_append g2 (by simp; omega), et, ht]
      simp
    · simp [e1, (bnil sp (by omega)).1, g0, Ne.symm h0, Ne.symm n1, Ne.symm n3]
    · simp [e2, (bnil sp (by omega)).2, g0, k, Ne.symm n1, Ne.symm n3]
    · simp [e3, (bnil jn (by omega)).1, g0, k, Ne.symm n2, Ne.symm n4]
    · simp [e4, (bnil jn (by omega)).2, g0, h0, Ne.symm n2, Ne.symm n4]

theorem spec_inter {ts : List (PT α)} (hs : ∀ t ∈ ts, Spec t) : Spec (.node .inter ts) := by
  intro ip fp c h0 h1 h2
  obtain ⟨ks, g, hks, hL, htr, e1, e2, e3, e4⟩ := inter_list hs c.nt (c.nt + 1) c.np ⟨c.np + 1, c.nt + 2⟩ (by simp only; omega)
    (by simp only; omega) (by omega) (by simp only; omega)
  simp only [body]
  obtain ⟨hg, ht⟩ := node_good (k := 1) (c := c) (ctl := ⟨[c.np], [(c.nt, none), (c.nt + 1, none)],
    [(ip, c.nt), (c.np, c.nt + 1)], [(c.nt + 1, fp), (c.nt, c.np)]⟩) g (by simp [List.range']) rfl (by simp) (by simp)
  refine ⟨hg, ?_⟩
  rw [ht, e1, e2, e3, e4, htr]
  have := block_inter hks h1 h2 h0
  rw [hL] at this
  simpa [interTr, PT.lang_node, PT.opLang] using this

theorem or_list {ts : List (PT α)} (hs : ∀ t ∈ ts, Spec t) (sp jn term : Nat) (c : Cnt) (h1 : sp < c.nt) (h2 : jn < c.nt)
    (h0 : sp ≠ jn) (hc : term + 1 < c.np) :
    ∃ ks : List (OKid α), Good (bodyOr ts sp jn term (term + 1) c).1 c (bodyOr ts sp jn term (term + 1) c).2 [sp, jn] ∧
      OKids ks c.np (bodyOr ts sp jn term (term + 1) c).2.np ∧ ks.map OKid.L = ts.map PT.lang ∧
      (bodyOr ts sp jn term (term + 1) c).1.trs = (ks.flatMap fun k => k.S term :: k.La term :: k.Sk term :: k.T) ∧
      (bodyOr ts sp jn term (term + 1) c).1.pre sp = [] ∧ (bodyOr ts sp jn term (term + 1) c).1.post sp = ks.map OKid.ini ∧
      (bodyOr ts sp jn term (term + 1) c).1.pre jn = ks.map OKid.en ∧ (bodyOr ts sp jn term (term + 1) c).1.post jn = [] := by
  induction ts generalizing c with
  | nil =>
    refine ⟨[], ?_, ?_, ?_⟩
    · simpa [bodyOr] using Good.empty c _
    · simpa [bodyOr] using OKids.nil _
    · simp [bodyOr, Gr.trs]
  | cons t ts ih =>
    simp only [bodyOr, sub_pp]
    obtain ⟨gb, bb⟩ := hs t (by simp) (c.np + 1) (c.np + 2) ⟨c.np + 3, c.nt + 3⟩ (by omega) (by simp only; omega)
      (by simp only; omega)
    generalize hb : body t (c.np + 1) (c.np + 2) ⟨c.np + 3, c.nt + 3⟩ = b at gb bb ⊢
    have a := gb.np; have a' := gb.nt
    simp only at a a'
    obtain ⟨ks, g2, hks, hL, ht, e1, e2, e3, e4⟩ := ih (fun t h => hs t (by simp [h])) b.2 (by omega) (by omega) (by omega)
    let k : OKid α := ⟨c.np, c.np + 1, c.np + 2, c.np + 3, b.2.np, b.1.trs, t.lang⟩
    let g0 : Gr α := ⟨[c.np, c.np + 1, c.np + 2], [(c.nt, none), (c.nt + 1, none), (c.nt + 2, none)],
      [(term + 1, c.nt), (c.np, c.nt), (term, c.nt + 1), (c.np, c.nt + 1), (term, c.nt + 2), (c.np, c.nt + 2), (c.np + 2, jn)],
      [(sp, c.np), (c.nt, c.np + 1), (c.nt, term), (c.nt + 1, c.np + 1), (c.nt + 1, term), (c.nt + 2, term), (c.nt + 2, c.np + 2)]⟩
    rw [← Gr.append_assoc]
    have n1 : sp ≠ c.nt := by omega
    have n2 : jn ≠ c.nt := by omega
    have n3 : sp ≠ c.nt + 1 := by omega
    have n4 : jn ≠ c.nt + 1 := by omega
    have n5 : sp ≠ c.nt + 2 := by omega
    have n6 : jn ≠ c.nt + 2 := by omega
    have bnil : ∀ t, t < c.nt + 3 → b.1.pre t = [] ∧ b.1.post t = [] := fun t h =>
      ⟨gb.pre_nil (.inl h) (by simp), gb.post_nil (.inl h) (by simp)⟩
    have g1 : Good (g0 ++ b.1) c b.2 [sp, jn] := by
      refine ⟨by omega, by omega, ?_, ?_, ?_, ?_, ?_⟩
      · intro t
        rw [Gr.append_trans, List.map_append, List.mem_append, gb.trans]
        simp only [g0, List.map_cons, List.map_nil, List.mem_cons, List.not_mem_nil, or_false]
        omega
      · rw [Gr.append_trans, List.map_append]
        refine List.nodup_append.2 ⟨by simp [g0], gb.nodup, ?_⟩
        intro x hx y hy
        have := (gb.trans y).1 hy
        simp only [g0, List.map_cons, List.map_nil, List.mem_cons, List.not_mem_nil, or_false] at hx this
        omega
      · intro x hx
        rcases List.mem_append.1 hx with hx | hx
        · simp only [g0, List.mem_cons, List.not_mem_nil, or_false] at hx
          rcases hx with rfl | rfl | rfl | rfl | rfl | rfl | rfl <;> simp <;> omega
        · rcases gb.pt x hx with h | h
          · simp only at h; left; omega
          · simp at h
      · intro x hx
        rcases List.mem_append.1 hx with hx | hx
        · simp only [g0, List.mem_cons, List.not_mem_nil, or_false] at hx
          rcases hx with rfl | rfl | rfl | rfl | rfl | rfl | rfl <;> simp <;> omega
        · rcases gb.tp x hx with h | h
          · simp only at h; left; omega
          · simp at h
      · intro p
        rw [Gr.append_places, List.mem_append, gb.places]
        simp only [g0, List.mem_cons, List.not_mem_nil, or_false, Inner]; omega
    have et : (g0 ++ b.1).trs = k.S term :: k.La term :: k.Sk term :: k.T := by
      rw [Gr.trs_append]
      simp only [g0, List.map_cons, List.map_nil, List.cons_append, List.nil_append, OKid.S, OKid.La, OKid.Sk, k]
      obtain ⟨p1, p2⟩ := bnil c.nt (by omega)
      obtain ⟨p3, p4⟩ := bnil (c.nt + 1) (by omega)
      obtain ⟨p5, p6⟩ := bnil (c.nt + 2) (by omega)
      rw [p1, p2, p3, p4, p5, p6]
      congr 1
      · simp [n1, n2]
      · congr 1
        · simp [n3, n4]
        · congr 1
          · simp [n5, n6]
          · refine List.map_congr_left fun e he => ?_
            have h := gb.mem he
            simp only at h
            have q1 : sp ≠ e.1 := by omega
            have q2 : jn ≠ e.1 := by omega
            have q3 : c.nt ≠ e.1 := by omega
            have q4 : c.nt + 1 ≠ e.1 := by omega
            have q5 : c.nt + 2 ≠ e.1 := by omega
            simp [q1, q2, q3, q4, q5]
    refine ⟨k :: ks, g1.append g2, ?_, by simp [k, hL], ?_, ?_, ?_, ?_, ?_⟩
    · exact .cons rfl ⟨rfl, rfl, rfl, bb⟩ hks
    · have := g1.trs_append g2 (by simp; omega)
      rw [et, ht] at this
      rw [this]; simp
    · simp [e1, (bnil sp (by omega)).1, Ne.symm h0, Ne.symm n1, Ne.symm n3, Ne.symm n5]
    · simp [e2, (bnil sp (by omega)).2, k, Ne.symm n1, Ne.symm n3, Ne.symm n5]
    · simp [e3, (bnil jn (by omega)).1, k, Ne.symm n2, Ne.symm n4, Ne.symm n6]
    · simp [e4, (bnil jn (by omega)).2, h0, Ne.symm n2, Ne.symm n4, Ne.symm n6]

theorem spec_or {ts : List (PT α)} (hs : ∀ t ∈ ts, Spec t) (h2' : 2 ≤ ts.length) : Spec (.node .or ts) := by
  intro ip fp c h0 h1 h2
  obtain ⟨ks, g, hks, hL, htr, e1, e2, e3, e4⟩ := or_list hs c.nt (c.nt + 1) c.np ⟨c.np + 2, c.nt + 2⟩ (by simp only; omega)
    (by simp only; omega) (by omega) (by simp only; omega)
  simp only [body]
  obtain ⟨hg, ht⟩ := node_good (k := 2) (c := c) (ctl := ⟨[c.np, c.np + 1], [(c.nt, none), (c.nt + 1, none)],
    [(ip, c.nt), (c.np, c.nt + 1)], [(c.nt + 1, fp), (c.nt, c.np + 1)]⟩) g (by simp [List.range']) rfl (by simp) (by simp)
  refine ⟨hg, ?_⟩
  rw [ht, e1, e2, e3, e4, htr]
  have hlen : ks.length = ts.length := by simpa using congrArg List.length hL
  have := block_or hks h1 h2 h0 (by omega)
  rw [hL] at this
  simpa [orTr, PT.lang_node, PT.opLang] using this

theorem redo_some (ts : List (PT α)) (d r : Nat) (c : Cnt) :
    bodyRedo ts d (some r) c = ((bodyXor ts d r c).1, (bodyXor ts d r c).2, some r) := by
  induction ts generalizing c with
  | nil => simp [bodyRedo, bodyXor]
  | cons t ts ih => simp [bodyRedo, bodyXor, sub_pp, ih]

theorem redo_none (t : PT α) (ts : List (PT α)) (d : Nat) (c : Cnt) :
    bodyRedo (t :: ts) d none c = ({ places := [c.np] } ++ (bodyXor (t :: ts) d c.np ⟨c.np + 1, c.nt⟩).1,
      (bodyXor (t :: ts) d c.np ⟨c.np + 1, c.nt⟩).2, some c.np) := by
  simp [bodyRedo, bodyXor, sub_pp, sub_pn, redo_some, Gr.append_assoc]

theorem spec_loop {ts : List (PT α)} (hs : ∀ t ∈ ts, Spec t) (h2' : 2 ≤ ts.length) : Spec (.node .loop ts) := by
  intro ip fp c h0 h1 h2
  match ts, hs, h2' with
  | t :: t' :: ts, hs, _ =>
    obtain ⟨g1, b1⟩ := hs t (by simp) c.np (c.np + 1) ⟨c.np + 2, c.nt + 2⟩ (by omega) (by simp only; omega) (by simp only; omega)
    simp only [body]
    rw [bodyLoop]
    simp only [List.isEmpty_cons, Bool.false_eq_true, if_false, sub_pn, redo_none, sub_pp]
    generalize hb : body t c.np (c.np + 1) ⟨c.np + 2, c.nt + 2⟩ = b at g1 b1 ⊢
    have a := g1.np; have a' := g1.nt
    simp only at a a'
    obtain ⟨g2, b2⟩ := spec_xor (ts := t' :: ts) (fun t h => hs t (List.mem_cons_of_mem _ h)) (by simp) (c.np + 1) b.2.np ⟨b.2.np + 1, b.2.nt⟩
      (by omega) (by simp only; omega) (by simp only; omega)
    generalize hx : bodyXor (t' :: ts) (c.np + 1) b.2.np ⟨b.2.np + 1, b.2.nt⟩ = x at g2 b2 ⊢
    have x1 := g2.np; have x2 := g2.nt
    simp only at x1 x2
    let ctl : Gr α := ⟨[c.np], [(c.nt, none), (c.nt + 1, none)], [(ip, c.nt), (b.2.np, c.nt + 1)], [(c.nt, c.np), (c.nt + 1, c.np)]⟩
    let ex : Gr α := ⟨[], [(x.2.nt, none)], [(c.np + 1, x.2.nt)], [(x.2.nt, fp)]⟩
    -- what the children and the exit add
    have ga : Good (({ places := [c.np + 1] } : Gr α) ++ b.1) ⟨c.np + 1, c.nt + 2⟩ b.2 [] := g1.cons_place rfl rfl (by simp) (by simp)
    have gx : Good (({ places := [b.2.np] } : Gr α) ++ x.1) b.2 x.2 [] := g2.cons_place rfl rfl (by simp) (by simp)
    have ge : Good ex x.2 { x.2 with nt := x.2.nt + 1 } [] := by
      refine ⟨Nat.le_refl _, by simp, ?_, by simp [ex], by simp [ex], by simp [ex], ?_⟩
      · intro t
        simp only [ex, List.map_cons, List.map_nil, List.mem_singleton]
        omega
      · intro p
        simp only [ex, List.not_mem_nil, Inner, false_iff]; omega
    have gi := (ga.append (gx.append ge)).ext_mono (ext' := [c.nt, c.nt + 1]) (by simp)
    have ti := ga.trs_append (gx.append ge) (by simp)
    rw [gx.trs_append ge (by simp), Gr.trs_places, Gr.trs_places] at ti
    obtain ⟨gn, tn⟩ := node_good (c := c) (ctl := ctl) (k := 1) gi (by simp [ctl, List.range']) rfl (by simp [ctl]) (by simp [ctl])
    have gi' := ga.append (gx.append ge)
    rw [gi'.pre_nil (.inl (by simp only; omega)) (by simp), gi'.post_nil (.inl (by simp only; omega)) (by simp),
      gi'.pre_nil (.inl (by simp only; omega)) (by simp), gi'.post_nil (.inl (by simp only; omega)) (by simp), ti] at tn
    -- the order of the arcs of the loop transition does not matter
    have key : ∀ G : Gr α, G.places = (ctl ++ (({ places := [c.np + 1] } : Gr α) ++ b.1 ++ (({ places := [b.2.np] } : Gr α) ++ x.1 ++ ex))).places →
        G.trans = (ctl ++ (({ places := [c.np + 1] } : Gr α) ++ b.1 ++ (({ places := [b.2.np] } : Gr α) ++ x.1 ++ ex))).trans →
        (∀ a, a ∈ G.pt ↔ a ∈ (ctl ++ (({ places := [c.np + 1] } : Gr α) ++ b.1 ++ (({ places := [b.2.np] } : Gr α) ++ x.1 ++ ex))).pt) →
        (∀ a, a ∈ G.tp ↔ a ∈ (ctl ++ (({ places := [c.np + 1] } : Gr α) ++ b.1 ++ (({ places := [b.2.np] } : Gr α) ++ x.1 ++ ex))).tp) →
        Good G c { x.2 with nt := x.2.nt + 1 } [] := by
      intro G h1 h2 h3 h4
      exact ⟨gn.np, gn.nt, by rw [h2]; exact gn.trans, by rw [h2]; exact gn.nodup, fun a ha => gn.pt a ((h3 a).1 ha),
        fun a ha => gn.tp a ((h4 a).1 ha), by rw [h1]; exact gn.places⟩
    refine ⟨key _ ?_ ?_ ?_ ?_, ?_⟩
    · simp [ctl, ex]
    · simp [ctl, ex]
    · intro a; simp [ctl, ex]; grind
    · intro a; simp [ctl, ex]; grind
    · have bl := block_loop b1 b2 h1 h2 h0 rfl rfl rfl rfl
      have : Block (loopTr b.1.trs x.1.trs ip fp c.np (c.np + 1) b.2.np) ip fp c.np x.2.np (PT.lang (.node .loop (t :: t' :: ts))) := by
        refine bl.congr fun w => ?_
        rw [PT.lang_node]
        exact loopL_xor _ _ w
      refine this.mono fun tr => ?_
      have bnil : ∀ t, t < c.nt + 2 → b.1.pre t = [] ∧ b.1.post t = [] := fun t h =>
        ⟨g1.pre_nil (.inl h) (by simp), g1.post_nil (.inl h) (by simp)⟩
      have xnil : ∀ t, t < b.2.nt → x.1.pre t = [] ∧ x.1.post t = [] := fun t h =>
        ⟨g2.pre_nil (.inl h) (by simp), g2.post_nil (.inl h) (by simp)⟩
      have et : ∀ G : Gr α, G.trans = (ctl ++ (({ places := [c.np + 1] } : Gr α) ++ b.1 ++ (({ places := [b.2.np] } : Gr α) ++ x.1 ++ ex))).trans →
          (∀ t, G.pre t = (ctl ++ (({ places := [c.np + 1] } : Gr α) ++ b.1 ++ (({ places := [b.2.np] } : Gr α) ++ x.1 ++ ex))).pre t) →
          (∀ t, G.post t = (ctl ++ (({ places := [c.np + 1] } : Gr α) ++ b.1 ++ (({ places := [b.2.np] } : Gr α) ++ x.1 ++ ex))).post t) →
          G.trs = (ctl ++ (({ places := [c.np + 1] } : Gr α) ++ b.1 ++ (({ places := [b.2.np] } : Gr α) ++ x.1 ++ ex))).trs := by
        intro G h1 h2 h3
        unfold Gr.trs
        rw [h1]
        exact List.map_congr_left fun e _ => by rw [h2, h3]
      have tnil : ∀ t, t ≠ c.nt + 1 → ∀ q : Nat, List.map Prod.fst (List.filter (fun a : Nat × Nat => a.2 == t) [(q, c.nt + 1)]) = [] := by
        intro t ht q; simp [Ne.symm ht]
      rw [et (_ ++ _)]
      · rw [tn]
        have ee : ex.trs = [⟨[c.np + 1], [fp], none⟩] := by simp [ex, Gr.trs]
        have e1 : ctl.pre c.nt = [ip] := by simp [ctl]
        have e2 : ctl.post c.nt = [c.np] := by simp [ctl]
        have e3 : ctl.pre (c.nt + 1) = [b.2.np] := by simp [ctl]
        have e4 : ctl.post (c.nt + 1) = [c.np] := by simp [ctl]
        rw [ee, e1, e2, e3, e4]
        simp only [loopTr, List.mem_cons, List.mem_append, List.append_nil, List.not_mem_nil, or_false]
        generalize (tr ∈ b.1.trs) = A
        generalize (tr ∈ x.1.trs) = B
        constructor
        · rintro (h | h | h | h | h)
          · exact .inl h
          · exact .inr (.inl h)
          · exact .inr (.inr (.inr (.inr h)))
          · exact .inr (.inr (.inl h))
          · exact .inr (.inr (.inr (.inl h)))
        · rintro (h | h | h | h | h)
          · exact .inl h
          · exact .inr (.inl h)
          · exact .inr (.inr (.inr (.inl h)))
          · exact .inr (.inr (.inr (.inr h)))
          · exact .inr (.inr (.inl h))
      · simp [ctl, ex]
      · intro t
        by_cases e : t = c.nt + 1
        · subst e
          have q1 : x.2.nt ≠ c.nt + 1 := by omega
          simp [ctl, ex, (bnil (c.nt + 1) (by omega)).1, (xnil (c.nt + 1) (by omega)).1, q1]
        · simp [ctl, ex, List.filter_cons, Ne.symm e]
      · intro t
        by_cases e : t = c.nt + 1
        · subst e
          have q1 : x.2.nt ≠ c.nt + 1 := by omega
          simp [ctl, ex, (bnil (c.nt + 1) (by omega)).2, (xnil (c.nt + 1) (by omega)).2, q1]
        · simp [ctl, ex, List.filter_cons, Ne.symm e]

/-- the net built for a well-formed tree realises its language -/
theorem spec_all {t : PT α} (h : WellFormed t) : Spec t := by
  induction h with
  | leaf l => exact spec_leaf l
  | node op cs hne h2 _ ih =>
    cases op with
    | seq => 
      intro ip fp c h0 h1 h2
      have := spec_seq ih hne ip fp c h0 h1 h2
      simpa [body, PT.lang_node, PT.opLang] using this
    | xor =>
      intro ip fp c h0 h1 h2
      have := spec_xor ih hne ip fp c h0 h1 h2
      simpa [body, PT.lang_node, PT.opLang] using this
    | par => exact spec_par ih hne
    | loop => exact spec_loop ih (h2 (.inl rfl))
    | or => exact spec_or ih (h2 (.inr rfl))
    | inter => exact spec_inter ih

end Conv
end Verif
