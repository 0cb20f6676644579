import Verif.Regex.Model
import Verif.Regex.Spec
set_option linter.unusedSectionVars false
/-
Proofs for C56.
-/
namespace Verif
namespace Regex
open Lang
variable {α : Type} [DecidableEq α]

/-! ### Languages -/

theorem cat_eps_left {β : Type} (L : Lang β) (u : List β) : Lang.cat Lang.eps L u ↔ L u :=
  ⟨fun ⟨_, _, h1, h2, h⟩ => by rw [h, show _ = [] from h1]; exact h2, fun h => ⟨[], u, rfl, h, rfl⟩⟩

theorem cat_eps_right {β : Type} (L : Lang β) (u : List β) : Lang.cat L Lang.eps u ↔ L u :=
  ⟨fun ⟨_, _, h1, h2, h⟩ => by rw [h, show _ = [] from h2, List.append_nil]; exact h1, fun h => ⟨u, [], h, rfl, by simp⟩⟩

theorem cat_assoc {β : Type} (L M N : Lang β) (u : List β) : Lang.cat (Lang.cat L M) N u ↔ Lang.cat L (Lang.cat M N) u := by
  constructor
  · rintro ⟨_, c, ⟨a, b, ha, hb, rfl⟩, hc, rfl⟩; exact ⟨a, _, ha, ⟨b, c, hb, hc, rfl⟩, by simp⟩
  · rintro ⟨a, _, ha, ⟨b, c, hb, hc, rfl⟩, rfl⟩; exact ⟨_, c, ⟨a, b, ha, hb, rfl⟩, hc, by simp⟩

theorem cat_congr {β : Type} {L L' M M' : Lang β} (h1 : ∀ u, L u ↔ L' u) (h2 : ∀ u, M u ↔ M' u) (u : List β) :
    Lang.cat L M u ↔ Lang.cat L' M' u := by
  rw [show L = L' from funext fun u => propext (h1 u), show M = M' from funext fun u => propext (h2 u)]

/-! ### The parser on groups -/

theorem push_alts (f : Frame) (r : RE) (q : Bool) : (f.push r q).alts = f.alts := rfl
theorem push_seq (f : Frame) (r : RE) (q : Bool) : (f.push r q).seq = .cat f.seq r := rfl

theorem go_open (s : List Nat) (f : Frame) (fs : List Frame) : go (40 :: s) f fs = go s .empty (f :: fs) := by simp [go]
theorem go_close (s : List Nat) (f g : Frame) (fs : List Frame) : go (41 :: s) f (g :: fs) = go s (g.push f.all false) fs := by simp [go]
theorem go_bar (s : List Nat) (f : Frame) (fs : List Frame) : go (124 :: s) f fs = go s f.bar fs := by simp [go]
theorem go_quant {c : Nat} (hc : c = 42 ∨ c = 43 ∨ c = 63) (s : List Nat) (f : Frame) (r : RE) (fs : List Frame) :
    go (c :: s) (f.push r false) fs = go s (f.push (quant c r) true) fs := by
  rcases hc with rfl | rfl | rfl <;> simp [go, Frame.push]
theorem go_lit {c : Nat} (hc : c ∉ avoid) (s : List Nat) (f : Frame) (fs : List Frame) : go (c :: s) f fs = go s (f.push (.lit c) false) fs := by
  simp only [avoid, List.mem_cons, List.not_mem_nil, or_false, not_or] at hc
  conv => lhs; unfold go
  rw [if_neg (by omega), if_neg (by omega), if_neg (by omega), if_neg (by omega), if_neg (by simp; omega)]

/-- the string can be read as items that together have the language -/
def Den (s : List Nat) (L : Lang Nat) : Prop := ∀ f : Frame, ∃ g : Frame, g.alts = f.alts ∧
  (∀ suf fs, go (s ++ suf) f fs = go suf g fs) ∧ ∀ u, g.seq.M u ↔ Lang.cat f.seq.M L u

/-- the string can be read as a single group, which a quantifier may follow -/
def DenG (s : List Nat) (L : Lang Nat) : Prop := ∃ r : RE, (∀ u, r.M u ↔ L u) ∧
  ∀ f suf fs, go (s ++ suf) f fs = go suf (f.push r false) fs

theorem DenG.den {s : List Nat} {L : Lang Nat} (h : DenG s L) : Den s L := by
  intro f
  obtain ⟨r, hr, hg⟩ := h
  exact ⟨f.push r false, rfl, fun suf fs => hg f suf fs, fun u => cat_congr (fun _ => Iff.rfl) hr u⟩

theorem den_nil : Den [] Lang.eps := fun f => ⟨f, rfl, fun _ _ => rfl, fun u => (cat_eps_right _ u).symm⟩

theorem Den.append {s t : List Nat} {L M : Lang Nat} (h1 : Den s L) (h2 : Den t M) : Den (s ++ t) (Lang.cat L M) := by
  intro f
  obtain ⟨g, a1, b1, c1⟩ := h1 f
  obtain ⟨k, a2, b2, c2⟩ := h2 g
  refine ⟨k, a2.trans a1, fun suf fs => by rw [List.append_assoc, b1, b2], fun u => ?_⟩
  rw [c2, ← cat_assoc]
  exact cat_congr c1 (fun _ => Iff.rfl) u

theorem Den.congr {s : List Nat} {L M : Lang Nat} (h : Den s L) (hM : ∀ u, L u ↔ M u) : Den s M := by
  rwa [show M = L from funext fun u => propext (hM u).symm]

theorem den_lit {c : Nat} (hc : c ∉ avoid) : DenG [c] (fun w => w = [c]) :=
  ⟨.lit c, fun _ => Iff.rfl, fun f suf fs => go_lit hc suf f fs⟩

theorem Den.group {s : List Nat} {L : Lang Nat} (h : Den s L) : DenG (40 :: s ++ [41]) L := by
  obtain ⟨g, a, b, c⟩ := h .empty
  refine ⟨g.all, fun u => ?_, fun f suf fs => ?_⟩
  · unfold Frame.all
    rw [a]
    show g.seq.M u ↔ L u
    rw [c]; exact cat_eps_left L u
  · rw [List.cons_append, List.cons_append, go_open, List.append_assoc, b]
    exact go_close suf g f fs

theorem DenG.opt {s : List Nat} {L : Lang Nat} (h : DenG s L) : Den (s ++ [63]) (fun w => w = [] ∨ L w) := by
  obtain ⟨r, hr, hg⟩ := h
  intro f
  refine ⟨f.push (.opt r) true, rfl, fun suf fs => ?_, fun u => ?_⟩
  · rw [List.append_assoc, hg]; exact go_quant (.inr (.inr rfl)) suf f r fs
  · exact cat_congr (fun _ => Iff.rfl) (fun w => or_congr Iff.rfl (hr w)) u

theorem DenG.star {s : List Nat} {L : Lang Nat} (h : DenG s L) : Den (s ++ [42]) (Star L) := by
  obtain ⟨r, hr, hg⟩ := h
  rw [show L = r.M from funext fun u => propext (hr u).symm]
  intro f
  refine ⟨f.push (.star r) true, rfl, fun suf fs => ?_, fun u => Iff.rfl⟩
  rw [List.append_assoc, hg]; exact go_quant (.inl rfl) suf f r fs

theorem DenG.plus {s : List Nat} {L : Lang Nat} (h : DenG s L) : Den (s ++ [43]) (Lang.cat L (Star L)) := by
  obtain ⟨r, hr, hg⟩ := h
  rw [show L = r.M from funext fun u => propext (hr u).symm]
  intro f
  refine ⟨f.push (.plus r) true, rfl, fun suf fs => ?_, fun u => Iff.rfl⟩
  rw [List.append_assoc, hg]; exact go_quant (.inr (.inl rfl)) suf f r fs

/-- strings with languages -/
inductive DenL : List (List Nat) → List (Lang Nat) → Prop
  | nil : DenL [] []
  | cons {s L ss Ls} : Den s L → DenL ss Ls → DenL (s :: ss) (L :: Ls)

theorem DenL.flatten {ss : List (List Nat)} {Ls : List (Lang Nat)} (h : DenL ss Ls) : Den ss.flatten (seqL Ls) := by
  induction h with
  | nil => exact den_nil
  | cons h1 _ ih => exact h1.append ih

theorem DenL.bars {ss : List (List Nat)} {Ls : List (Lang Nat)} (h : DenL ss Ls) (hne : ss ≠ []) (f : Frame) (hf : f.last = none) (hp : f.pre = .eps) :
    ∃ g : Frame, (∀ suf fs, go (joinBar ss ++ suf) f fs = go suf g fs) ∧
      ∀ u, g.all.M u ↔ (∃ r, f.alts = some r ∧ r.M u) ∨ xorL Ls u := by
  induction h generalizing f with
  | nil => exact absurd rfl hne
  | @cons s L ss Ls h1 h2 ih =>
    obtain ⟨g, a, b, c⟩ := h1 f
    have hs : f.seq = .eps := by rw [Frame.seq, hf]; exact hp
    have hgall : ∀ u, g.all.M u ↔ (∃ r, f.alts = some r ∧ r.M u) ∨ L u := by
      intro u
      have hc : g.seq.M u ↔ L u := by rw [c, hs]; exact cat_eps_left L u
      unfold Frame.all
      rw [a]
      cases f.alts with
      | none => simpa using hc
      | some r => show (r.M u ∨ g.seq.M u) ↔ _; rw [hc]; simp
    cases h2 with
    | nil => exact ⟨g, b, fun u => by rw [hgall]; simp [xorL]⟩
    | @cons t M ts Ms h3 h4 =>
      obtain ⟨k, hk, hk'⟩ := ih (by simp) g.bar rfl rfl
      refine ⟨k, fun suf fs => ?_, fun u => ?_⟩
      · rw [joinBar, List.append_assoc, b, List.cons_append, go_bar]; exact hk suf fs
        simp
      · rw [hk']
        constructor
        · rintro (⟨r, hr, h⟩ | ⟨N, hN, h⟩)
          · cases hr
            rcases (hgall u).1 h with h | h
            · exact .inl h
            · exact .inr ⟨L, List.mem_cons_self, h⟩
          · exact .inr ⟨N, List.mem_cons_of_mem _ hN, h⟩
        · rintro (h | ⟨N, hN, h⟩)
          · exact .inl ⟨g.all, rfl, (hgall u).2 (.inl h)⟩
          · rcases List.mem_cons.1 hN with rfl | hN
            · exact .inl ⟨g.all, rfl, (hgall u).2 (.inr h)⟩
            · exact .inr ⟨N, hN, h⟩

theorem DenL.xorG {ss : List (List Nat)} {Ls : List (Lang Nat)} (h : DenL ss Ls) (hne : ss ≠ []) : DenG (40 :: joinBar ss ++ [41]) (xorL Ls) := by
  obtain ⟨g, b, c⟩ := h.bars hne .empty rfl rfl
  refine ⟨g.all, fun u => ?_, fun f suf fs => ?_⟩
  · rw [c]; simp [Frame.empty]
  · rw [List.cons_append, List.cons_append, go_open, List.append_assoc, b]
    exact go_close suf g f fs

/-! ### The dictionary -/

theorem skip_spec (c : Nat) : c ≤ skip c ∧ skip c ∉ avoid := by
  induction c using skip.induct with
  | case1 c h ih => rw [skip, dif_pos h]; exact ⟨by omega, ih.2⟩
  | case2 c h => rw [skip, dif_neg h]; exact ⟨Nat.le_refl _, h⟩

/-- the dictionary: no label twice, no character twice, none to avoid -/
structure Inv (st : St α) : Prop where
  keys : (st.dict.map Prod.fst).Nodup
  vals : (st.dict.map Prod.snd).Nodup
  le : ∀ e ∈ st.dict, e.2 ≤ st.count ∧ e.2 ∉ avoid

theorem get_some {st : St α} {a : α} {c : Nat} (h : st.get a = some c) : (a, c) ∈ st.dict := by
  unfold St.get at h
  cases hf : st.dict.find? (fun e => e.1 == a) with
  | none => rw [hf] at h; cases h
  | some e =>
    rw [hf] at h
    have h1 := List.find?_some hf
    have h2 := List.mem_of_find?_eq_some hf
    simp at h h1
    obtain ⟨x, y⟩ := e
    simp only at h h1; subst h h1; exact h2

theorem get_none {st : St α} {a : α} (h : st.get a = none) : a ∉ st.dict.map Prod.fst := by
  unfold St.get at h
  rw [Option.map_eq_none_iff, List.find?_eq_none] at h
  intro hm
  obtain ⟨e, he, rfl⟩ := List.mem_map.1 hm
  exact h e he (by simp)

theorem charOf_inv {st : St α} (h : Inv st) (a : α) :
    Inv (charOf a st).2 ∧ (∃ l, (charOf a st).2.dict = st.dict ++ l) ∧ (a, (charOf a st).1) ∈ (charOf a st).2.dict ∧
    (∀ b, b ∈ (charOf a st).2.dict.map Prod.fst ↔ b ∈ st.dict.map Prod.fst ∨ b = a) := by
  unfold charOf
  cases hg : st.get a with
  | some c =>
    have hm := get_some hg
    refine ⟨h, ⟨[], by simp⟩, hm, fun b => ⟨.inl, ?_⟩⟩
    rintro (hb | rfl)
    · exact hb
    · exact List.mem_map.2 ⟨_, hm, rfl⟩
  | none =>
    have hk := get_none hg
    have hs := skip_spec (st.count + 1)
    simp only [newChar]
    refine ⟨⟨?_, ?_, ?_⟩, ⟨_, rfl⟩, by simp, fun b => by simp⟩
    · simp only [List.map_append, List.map_cons, List.map_nil]
      rw [List.nodup_append]
      refine ⟨h.keys, by simp, ?_⟩
      intro x hx y hy; simp at hy; subst hy; rintro rfl; exact hk hx
    · simp only [List.map_append, List.map_cons, List.map_nil]
      rw [List.nodup_append]
      refine ⟨h.vals, by simp, ?_⟩
      intro x hx y hy; simp at hy; subst hy; rintro rfl
      obtain ⟨e, he, hx⟩ := List.mem_map.1 hx
      have := (h.le e he).1
      omega
    · intro e he
      rcases List.mem_append.1 he with he | he
      · have := h.le e he
        exact ⟨by show e.2 ≤ skip _; omega, this.2⟩
      · simp at he; subst he; exact ⟨Nat.le_refl _, hs.2⟩

/-- what a call does to the dictionary -/
structure Ext (st st' : St α) (ls : List α) : Prop where
  inv : Inv st'
  ext : ∃ l, st'.dict = st.dict ++ l
  keys : ∀ b, b ∈ st'.dict.map Prod.fst ↔ b ∈ st.dict.map Prod.fst ∨ b ∈ ls

theorem Ext.trans {s1 s2 s3 : St α} {l1 l2 : List α} (h1 : Ext s1 s2 l1) (h2 : Ext s2 s3 l2) : Ext s1 s3 (l1 ++ l2) := by
  obtain ⟨e1, h1e⟩ := h1.ext
  obtain ⟨e2, h2e⟩ := h2.ext
  refine ⟨h2.inv, ⟨e1 ++ e2, by rw [h2e, h1e, List.append_assoc]⟩, fun b => ?_⟩
  rw [h2.keys, h1.keys, List.mem_append, or_assoc]

/-- the children are read one after the other -/
theorem repL_ext {cs : List (PT α)} (ih : ∀ c ∈ cs, ∀ st o st', Inv st → rep c st = some (o, st') → Ext st st' c.labels) :
    ∀ st os st', Inv st → repL cs st = some (os, st') → Ext st st' (PT.labelsL cs) := by
  induction cs with
  | nil =>
    intro st os st' hi h
    simp only [repL, Option.some.injEq, Prod.mk.injEq] at h
    obtain ⟨_, rfl⟩ := h
    exact ⟨hi, ⟨[], by simp⟩, by simp [PT.labelsL]⟩
  | cons c cs ihl =>
    intro st os st' hi h
    simp only [repL, Option.bind_eq_bind, Option.bind_eq_some_iff, pure, Option.some.injEq, Prod.mk.injEq, Prod.exists] at h
    obtain ⟨r, s1, h1, rs, s2, h2, _, rfl⟩ := h
    have e1 := ih c List.mem_cons_self st r s1 hi h1
    have e2 := ihl (fun d hd => ih d (List.mem_cons_of_mem _ hd)) s1 rs s2 e1.inv h2
    rw [PT.labelsL]; exact e1.trans e2

theorem rep_ext (t : PT α) : ∀ st o st', Inv st → rep t st = some (o, st') → Ext st st' t.labels := by
  induction t using PT.induct with
  | leaf l =>
    intro st o st' hi h
    cases l with
    | none =>
      simp only [rep, Option.some.injEq, Prod.mk.injEq] at h
      obtain ⟨_, rfl⟩ := h
      exact ⟨hi, ⟨[], by simp⟩, by simp [PT.labels]⟩
    | some a =>
      simp only [rep, Option.some.injEq, Prod.mk.injEq] at h
      obtain ⟨_, rfl⟩ := h
      obtain ⟨h1, h2, _, h4⟩ := charOf_inv hi a
      exact ⟨h1, h2, fun b => by rw [h4]; simp [PT.labels]⟩
  | node op cs ih =>
    intro st o st' hi h
    simp only [rep, Option.bind_eq_bind, Option.bind_eq_some_iff, pure, Option.some.injEq, Prod.mk.injEq, Prod.exists] at h
    obtain ⟨rs, s1, h1, s, _, _, rfl⟩ := h
    rw [PT.labels]; exact repL_ext ih st rs s1 hi h1

/-! ### Exceptions -/

/-- trees for which the conversion raises -/
inductive Raises : PT α → Prop
  | par (cs : List (PT α)) : Raises (.node .par cs)
  | or (cs : List (PT α)) : Raises (.node .or cs)
  | loop (cs : List (PT α)) : (∀ c ∈ cs, c = .leaf none) → Raises (.node .loop cs)
  | child (op : Op) (cs : List (PT α)) (c : PT α) : c ∈ cs → Raises c → Raises (.node op cs)

theorem rep_none_iff {t : PT α} {st st' : St α} {o : Option Str} (h : rep t st = some (o, st')) : o = none ↔ t = .leaf none := by
  cases t with
  | leaf l =>
    cases l with
    | none => simp only [rep, Option.some.injEq, Prod.mk.injEq] at h; simp [← h.1]
    | some a => simp only [rep, Option.some.injEq, Prod.mk.injEq] at h; simp [← h.1]
  | node op cs =>
    simp only [rep, Option.bind_eq_bind, Option.bind_eq_some_iff, pure, Option.some.injEq, Prod.mk.injEq, Prod.exists] at h
    obtain ⟨rs, s1, h1, s, _, rfl, _⟩ := h
    simp

theorem repL_none_iff {cs : List (PT α)} : ∀ {st st' : St α} {os : List (Option Str)}, repL cs st = some (os, st') →
    (os.filterMap id = [] ↔ ∀ c ∈ cs, c = .leaf none) := by
  induction cs with
  | nil => intro st st' os h; simp only [repL, Option.some.injEq, Prod.mk.injEq] at h; simp [← h.1]
  | cons c cs ih =>
    intro st st' os h
    simp only [repL, Option.bind_eq_bind, Option.bind_eq_some_iff, pure, Option.some.injEq, Prod.mk.injEq, Prod.exists] at h
    obtain ⟨r, s1, h1, rs, s2, h2, rfl, _⟩ := h
    have h0 := rep_none_iff h1
    have h3 := ih h2
    cases r with
    | none => simp [← h3, h0.1 rfl]
    | some s =>
      have : c ≠ .leaf none := fun hc => by have := h0.2 hc; cases this
      simp [this]

theorem repL_none {cs : List (PT α)} (ih : ∀ c ∈ cs, ∀ st, rep c st = none ↔ Raises c) :
    ∀ st, repL cs st = none ↔ ∃ c ∈ cs, Raises c := by
  induction cs with
  | nil => intro st; simp [repL]
  | cons c cs ihl =>
    intro st
    have h0 := ih c List.mem_cons_self st
    rw [repL]
    cases hr : rep c st with
    | none => simp only [Option.bind_eq_bind, Option.bind_none, true_iff]; exact ⟨c, List.mem_cons_self, h0.1 hr⟩
    | some x =>
      obtain ⟨o, s1⟩ := x
      have hc : ¬ Raises c := fun h => by rw [h0.2 h] at hr; cases hr
      have h1 := ihl (fun d hd => ih d (List.mem_cons_of_mem _ hd)) s1
      simp only [Option.bind_eq_bind, Option.bind_some, List.mem_cons, exists_eq_or_imp, hc, false_or]
      rw [← h1]
      cases repL cs s1 <;> simp

theorem rep_none (t : PT α) : ∀ st, rep t st = none ↔ Raises t := by
  induction t using PT.induct with
  | leaf l => intro st; cases l <;> simp only [rep] <;> exact ⟨fun h => by simp at h, fun h => by cases h⟩
  | node op cs ih =>
    intro st
    rw [rep]
    cases hl : repL cs st with
    | none =>
      obtain ⟨c, hc, h⟩ := (repL_none ih st).1 hl
      simp only [Option.bind_eq_bind, Option.bind_none, true_iff]
      exact .child op cs c hc h
    | some x =>
      obtain ⟨os, s1⟩ := x
      have hno : ¬ ∃ c ∈ cs, Raises c := fun h => by rw [(repL_none ih st).2 h] at hl; cases hl
      have htau := repL_none_iff hl
      simp only [Option.bind_eq_bind, Option.bind_some]
      have hb : ∀ s : Option Str, (s.bind fun s => pure (some s, s1) : Option (Option Str × St α)) = none ↔ s = none := by
        intro s; cases s <;> simp
      rw [hb]
      have hchild : ∀ {op : Op}, Raises (.node op cs) → op = .par ∨ op = .or ∨ (op = .loop ∧ ∀ c ∈ cs, c = .leaf none) := by
        intro op h
        cases h with
        | par => exact .inl rfl
        | or => exact .inr (.inl rfl)
        | loop _ h => exact .inr (.inr ⟨rfl, h⟩)
        | child _ _ c hc h => exact absurd ⟨c, hc, h⟩ hno
      cases op with
      | par => simp only [stru, true_iff]; exact .par cs
      | or => simp only [stru, true_iff]; exact .or cs
      | loop =>
        constructor
        · intro h
          refine .loop cs (htau.1 ?_)
          generalize os.filterMap id = l at h
          match l, h with
          | [], _ => rfl
          | [_], h => simp [stru] at h
          | _ :: _ :: _, h => simp [stru] at h
        · intro h
          rcases hchild h with h | h | ⟨_, h⟩
          · cases h
          · cases h
          · rw [htau.2 h]; rfl
      | seq => exact ⟨fun h => by simp [stru] at h, fun h => by rcases hchild h with h | h | ⟨h, _⟩ <;> cases h⟩
      | xor => exact ⟨fun h => by simp [stru] at h, fun h => by rcases hchild h with h | h | ⟨h, _⟩ <;> cases h⟩
      | inter => exact ⟨fun h => by simp [stru] at h, fun h => by rcases hchild h with h | h | ⟨h, _⟩ <;> cases h⟩

end Regex
end Verif
