import Verif.Convert.Reduce
/-
One application of a reduction rule keeps language and soundness; iteration (C15).
-/
namespace Verif
namespace Sys
open Lang
variable {α : Type}

/-- from `{i}` the net always can reach `{o}`; a token in `o` means that it is there; no place holds two tokens; every transition
can fire -/
structure Sound (T : List (Tr α)) (i o : Nat) : Prop where
  proper : ∀ w M, Run T (toks [i]) w M → 1 ≤ M o → M = toks [o]
  safe : ∀ w M, Run T (toks [i]) w M → ∀ p, M p ≤ 1
  complete : ∀ w M, Run T (toks [i]) w M → ∃ v, Run T M v (toks [o])
  live : ∀ t ∈ T, ∃ w M M', Run T (toks [i]) w M ∧ t.fires M M'

variable {T T' : List (Tr α)} {p i o : Nat} {q : List Nat}

theorem toks_off (h : p ≠ i) : toks [i] p = 0 := by rw [toks_single, if_neg h]

theorem EntryFusion.lang (h : EntryFusion T T' p q) {M M' : Mk} {w : List α} (h1 : M p = 0) (h2 : M' p = 0) :
    Run T M w M' ↔ Run T' M w M' := by
  refine ⟨fun hr => ?_, fun hr => (h.back hr h1).1⟩
  have := h.simulate hr
  rwa [hat_of_zero h1, hat_of_zero h2] at this

theorem ExitFusion.lang (h : ExitFusion T T' p q) {M M' : Mk} {w : List α} (h1 : M p = 0) (h2 : M' p = 0) :
    Run T M w M' ↔ Run T' M w M' := by
  refine ⟨fun hr => ?_, fun hr => (h.back hr h1).1⟩
  have := h.simulate hr
  rwa [hat_of_zero h1, hat_of_zero h2] at this

theorem sound_of_sim (h : Sound T i o) (hi : p ≠ i) (ho : p ≠ o)
    (sim : ∀ {M M' : Mk} {w : List α}, Run T M w M' → Run T' (hat p q M) w (hat p q M'))
    (back : ∀ {M M' : Mk} {w : List α}, Run T' M w M' → M p = 0 → Run T M w M' ∧ M' p = 0)
    (lift : ∀ e' ∈ T', ∃ e ∈ T, ∀ M M1, e.fires M M1 → e'.fires (hat p q M) (hat p q M1)) : Sound T' i o := by
  refine ⟨fun w M hr => h.proper w M (back hr (toks_off hi)).1, fun w M hr => h.safe w M (back hr (toks_off hi)).1, ?_, ?_⟩
  · intro w M hr
    obtain ⟨h1, h2⟩ := back hr (toks_off hi)
    obtain ⟨v, hv⟩ := h.complete w M h1
    have := sim hv
    rw [hat_of_zero h2, hat_of_zero (toks_off ho)] at this
    exact ⟨v, this⟩
  · intro e' he'
    obtain ⟨e, he, hl⟩ := lift e' he'
    obtain ⟨w, M, M', hr, hf⟩ := h.live e he
    have := sim hr
    rw [hat_of_zero (toks_off hi)] at this
    exact ⟨w, _, _, this, hl M M' hf⟩

theorem EntryFusion.sound (h : EntryFusion T T' p q) (hs : Sound T i o) (hi : p ≠ i) (ho : p ≠ o) : Sound T' i o :=
  sound_of_sim hs hi ho h.simulate h.back fun e' he' => by
    obtain ⟨e, he, hf⟩ := h.bwd e' he'
    exact ⟨e, he, fun M M1 => hf.fires⟩

theorem ExitFusion.sound (h : ExitFusion T T' p q) (hs : Sound T i o) (hi : p ≠ i) (ho : p ≠ o) : Sound T' i o :=
  sound_of_sim hs hi ho h.simulate h.back fun e' he' => by
    obtain ⟨e, he, hf⟩ := h.bwd e' he'
    exact ⟨e, he, fun M M1 => hf.fires⟩

/-- in a sound net no transition waits for a place nobody fills -/
theorem Sound.no_dead_entry {s : Tr α} (hS : Sound T i o) (hi : p ≠ i) (hm : s ∈ T) (hs : p ∈ s.pre)
    (h : ∀ e ∈ T, e = s ∨ (e ∈ T' ∧ p ∉ e.post)) : False := by
  obtain ⟨w, M, M', hr, hf⟩ := hS.live s hm
  have := (dead_entry hs h hr (toks_off hi)).2
  have := hf.mem_pre hs
  omega

/-- in a sound net no transition fills a place nobody empties -/
theorem Sound.no_dead_exit {s : Tr α} (hS : Sound T i o) (ho : p ≠ o) (hm : s ∈ T) (hs : s.post = [p]) (hs' : s.pre.count p ≤ 1)
    (h : ∀ e ∈ T, e = s ∨ (e ∈ T' ∧ p ∉ e.pre)) : False := by
  obtain ⟨w, M, M', hr, hf⟩ := hS.live s hm
  obtain ⟨v, hv⟩ := hS.complete _ _ (Run.snoc hr hm hf)
  have h1 := (dead_exit hs hs' h hv).1
  rw [toks_off ho] at h1
  have h2 := hf.2 p
  have h3 := hf.1 p
  have h4 : s.post.count p = 1 := by rw [hs]; simp
  omega

end Sys

namespace Conv
open Sys Lang
variable {α : Type}

/-- effect of one application of a rule that takes the transition `t` and the place `p` out of the net -/
structure Red (g g' : Gr α) (t p : Nat) : Prop where
  tin : (t, none) ∈ g.trans
  pin : p ∈ g.places
  trans : g'.trans = g.trans.filter fun e => !(e.1 == t)
  places : g'.places = g.places.filter fun x => !(x == p)
  one : (g.ppre p).length = 1 ∧ (g.ppost p).length = 1
  gone : (g'.ppre p).length = 0 ∨ (g'.ppost p).length = 0
  ideg : ∀ x, x ≠ p → (g'.ppre x).length = (g.ppre x).length
  odeg : ∀ x, x ≠ p → (g'.ppost x).length = (g.ppost x).length
  inv : g'.Inv
  lang : ∀ (M M' : Mk) (w : List α), M p = 0 → M' p = 0 → (Run g.trs M w M' ↔ Run g'.trs M w M')
  sound : ∀ i o, Sound g.trs i o → p ≠ i → p ≠ o → Sound g'.trs i o

theorem entry_red {g g' : Gr α} {t : Nat} (hi : g.Inv) (hl : (t, none) ∈ g.trans) (h : g.entryAt t = some g') :
    ∃ p, Red g g' t p := by
  obtain ⟨p, u, hs⟩ := Gr.entry_step hi (List.mem_map.2 ⟨_, hl, rfl⟩) h
  have hdead := fun hu => hs.dead hi hl hu
  have hmem : (⟨[p], g.post t, none⟩ : Tr α) ∈ g.trs := List.mem_map.2 ⟨_, hl, by simp [hs.pre]⟩
  refine ⟨p, hl, hs.pl, hs.trans', hs.places', by simp [hs.ppre, hs.ppost], by simp [hs.gone], fun x hx => hs.in_deg hx,
    fun x hx => by rw [hs.out_deg hx], hs.inv hi, ?_, ?_⟩
  · intro M M' w h1 h2
    by_cases hu : u = t
    · obtain ⟨d1, d2⟩ := hdead (.inl hu)
      exact ⟨fun hr => (dead_entry (by simp) d1 hr h1).1, fun hr => hr.mono d2⟩
    · exact (hs.fusion hi hl hu).lang h1 h2
  · intro i o hS h1 h2
    by_cases hu : u = t
    · exact (hS.no_dead_entry h1 hmem (by simp) (hdead (.inl hu)).1).elim
    · exact (hs.fusion hi hl hu).sound hS h1 h2

theorem mem_trs_flip {g : Gr α} {e : Tr α} : e ∈ g.flip.trs ↔ (⟨e.post, e.pre, e.lab⟩ : Tr α) ∈ g.trs := by
  simp only [Gr.trs, List.mem_map, Gr.flip_trans, Gr.flip_pre, Gr.flip_post]
  constructor
  · rintro ⟨a, ha, rfl⟩
    exact ⟨a, ha, rfl⟩
  · rintro ⟨a, ha, e'⟩
    refine ⟨a, ha, ?_⟩
    rcases e with ⟨x, y, z⟩
    simp only [Tr.mk.injEq] at e' ⊢
    exact ⟨e'.2.1, e'.1, e'.2.2⟩

theorem exit_red {g g' : Gr α} {t : Nat} (hi : g.Inv) (hl : (t, none) ∈ g.trans) (h : g.exitAt t = some g') :
    ∃ p, Red g g' t p := by
  obtain ⟨p, u, hs⟩ := Gr.entry_step hi.flip (List.mem_map.2 ⟨_, hl, rfl⟩) (Gr.exitAt_flip.1 h)
  have hpre := hs.pre; have hppre := hs.ppre; have hppost := hs.ppost; have hgone := hs.gone
  have hl' : (t, none) ∈ g.flip.trans := hl
  simp only [Gr.flip_pre, Gr.flip_ppre, Gr.flip_ppost] at hpre hppre hppost hgone
  have hmem : (⟨g.pre t, [p], none⟩ : Tr α) ∈ g.trs := List.mem_map.2 ⟨_, hl, by simp [hpre]⟩
  have hdead : u = t → (∀ e ∈ g.trs, e = ⟨g.pre t, [p], none⟩ ∨ (e ∈ g'.trs ∧ p ∉ e.pre)) ∧ ∀ e ∈ g'.trs, e ∈ g.trs := by
    intro hu
    obtain ⟨d1, d2⟩ := hs.dead hi.flip hl' (.inl hu)
    constructor
    · intro e he
      have := d1 ⟨e.post, e.pre, e.lab⟩ (mem_trs_flip.2 he)
      rcases this with h1 | h1
      · left
        rcases e with ⟨x, y, z⟩
        simp only [Tr.mk.injEq, Gr.flip_post] at h1 ⊢
        exact ⟨h1.2.1, h1.1, h1.2.2⟩
      · right
        exact ⟨mem_trs_flip.1 h1.1, h1.2⟩
    · intro e he
      exact mem_trs_flip.1 (d2 ⟨e.post, e.pre, e.lab⟩ (mem_trs_flip.2 he))
  have hfus : u ≠ t → ExitFusion g.trs g'.trs p (g.pre t) := by
    intro hu
    have F := hs.fusion hi.flip hl' hu
    rw [Gr.flip_post] at F
    refine ⟨hmem, F.nq, ?_, ?_⟩
    · intro e he
      rcases F.fwd ⟨e.post, e.pre, e.lab⟩ (mem_trs_flip.2 he) with h1 | ⟨e', he', h1⟩
      · left
        rcases e with ⟨x, y, z⟩
        simp only [Tr.mk.injEq] at h1 ⊢
        exact ⟨h1.2.1, h1.1, h1.2.2⟩
      · right
        exact ⟨_, mem_trs_flip.1 he', h1.npre, h1.pre, h1.lab, h1.post⟩
    · intro e' he'
      obtain ⟨e, he, h1⟩ := F.bwd ⟨e'.post, e'.pre, e'.lab⟩ (mem_trs_flip.2 he')
      exact ⟨_, mem_trs_flip.1 he, h1.npre, h1.pre, h1.lab, h1.post⟩
  have hcnt : (g.pre t).count p ≤ 1 := by
    rw [Gr.count_pre, ← Gr.count_ppost, hppre, List.count_singleton]
    split <;> omega
  refine ⟨p, hl, hs.pl, hs.trans', hs.places', by simp [hppre, hppost], by simp [hgone],
    fun x hx => by simpa using congrArg List.length (hs.out_deg hx), fun x hx => by simpa using hs.in_deg hx,
    by simpa using (hs.inv hi.flip).flip, ?_, ?_⟩
  · intro M M' w h1 h2
    by_cases hu : u = t
    · obtain ⟨d1, d2⟩ := hdead hu
      exact ⟨fun hr => (dead_exit rfl hcnt d1 hr).2 h2, fun hr => hr.mono d2⟩
    · exact (hfus hu).lang h1 h2
  · intro i o hS h1 h2
    by_cases hu : u = t
    · exact (hS.no_dead_exit h2 hmem rfl hcnt (hdead hu).1).elim
    · exact (hfus hu).sound hS h1 h2

/-! ### iteration -/

/-- any number of applications of the rules -/
inductive Reds : Gr α → Gr α → Prop
  | refl (g : Gr α) : g.Inv → Reds g g
  | step {g g1 g2 : Gr α} {t p : Nat} : Reds g g1 → Red g1 g2 t p → Reds g g2

namespace Reds
variable {g g1 g2 : Gr α}

theorem inv (h : Reds g g1) : g1.Inv := by
  cases h with
  | refl h => exact h
  | step _ h => exact h.inv

theorem trans (h1 : Reds g g1) (h2 : Reds g1 g2) : Reds g g2 := by
  induction h2 with
  | refl => exact h1
  | step _ h ih => exact .step ih h

/-- a marking with no tokens on places with exactly one input and one output arc -/
def Free (g : Gr α) (M : Mk) : Prop := ∀ x, (g.ppre x).length = 1 → (g.ppost x).length = 1 → M x = 0

theorem _root_.Verif.Conv.Red.free {t p : Nat} (h : Red g g1 t p) {M : Mk} (hM : Free g M) : Free g1 M := by
  intro x h1 h2
  by_cases hx : x = p
  · subst hx; have := h.gone; omega
  · exact hM x (by rw [← h.ideg x hx]; exact h1) (by rw [← h.odeg x hx]; exact h2)

theorem free (h : Reds g g1) {M : Mk} (hM : Free g M) : Free g1 M := by
  induction h with
  | refl => exact hM
  | step _ h ih => exact h.free ih

theorem lang (h : Reds g g1) {M M' : Mk} (hM : Free g M) (hM' : Free g M') (w : List α) :
    Run g.trs M w M' ↔ Run g1.trs M w M' := by
  induction h with
  | refl => exact Iff.rfl
  | @step g1 g2 t p hr h ih =>
    rw [ih]
    exact h.lang M M' w (hr.free hM p h.one.1 h.one.2) (hr.free hM' p h.one.1 h.one.2)

/-- surviving transitions and places are old ones; visible transitions survive -/
theorem sub (h : Reds g g1) : (∀ e ∈ g1.trans, e ∈ g.trans) ∧ (∀ x ∈ g1.places, x ∈ g.places) ∧
    ∀ e ∈ g.trans, e.2 ≠ none → e ∈ g1.trans := by
  induction h with
  | refl => exact ⟨fun _ h => h, fun _ h => h, fun _ h _ => h⟩
  | @step g1 g2 t p hr h ih =>
    refine ⟨fun e he => ih.1 e ?_, fun x hx => ih.2.1 x ?_, fun e he hn => ?_⟩
    · rw [h.trans] at he; exact (List.mem_filter.1 he).1
    · rw [h.places] at hx; exact (List.mem_filter.1 hx).1
    · rw [h.trans, List.mem_filter]
      refine ⟨ih.2.2 e he hn, ?_⟩
      simp only [Bool.not_eq_true', beq_eq_false_iff_ne]
      intro e1
      exact hn (by rw [Gr.EntryStep.mem_s.eq_of_nodup_map hr.inv.nodup (ih.2.2 e he hn) h.tin e1])

/-- surviving places keep their number of arcs; a place with no input or no output arc survives -/
theorem deg (h : Reds g g1) : (∀ x ∈ g1.places, (g1.ppre x).length = (g.ppre x).length ∧ (g1.ppost x).length = (g.ppost x).length) ∧
    ∀ x, (g.ppre x).length = 0 ∨ (g.ppost x).length = 0 →
      (g1.ppre x).length = (g.ppre x).length ∧ (g1.ppost x).length = (g.ppost x).length := by
  induction h with
  | refl => exact ⟨fun _ _ => ⟨rfl, rfl⟩, fun _ _ => ⟨rfl, rfl⟩⟩
  | @step g1 g2 t p hr h ih =>
    constructor
    · intro x hx
      rw [h.places, List.mem_filter] at hx
      have hne : x ≠ p := by simpa using hx.2
      rw [h.ideg x hne, h.odeg x hne]
      exact ih.1 x hx.1
    · intro x hx
      have := ih.2 x hx
      have hne : x ≠ p := by
        rintro rfl
        have := h.one
        omega
      rw [h.ideg x hne, h.odeg x hne]
      exact this

theorem sound (h : Reds g g1) {i o : Nat} (hS : Sound g.trs i o) (hi : g.ppre i = []) (ho : g.ppost o = []) : Sound g1.trs i o := by
  induction h with
  | refl => exact hS
  | @step g1 g2 t p hr h ih =>
    refine h.sound i o ih ?_ ?_
    · rintro rfl
      have h1 := hr.deg.2 p (by simp [hi])
      have := h.one.1
      rw [h1.1, hi] at this; cases this
    · rintro rfl
      have h1 := hr.deg.2 p (by simp [ho])
      have := h.one.2
      rw [h1.2, ho] at this; cases this

theorem length (h : Reds g g1) : g1.trans.length ≤ g.trans.length := by
  induction h with
  | refl => exact Nat.le_refl _
  | step _ h ih => rw [h.trans]; exact Nat.le_trans (List.length_filter_le _ _) ih

end Reds

/-! ### rounds -/

variable {ord : Gr α → List (Nat × Option α)}

theorem entryRound_red (hord : ∀ g, ∀ e ∈ ord g, e ∈ g.trans) {g g' : Gr α} (hi : g.Inv) (h : g.entryRound ord = some g') :
    ∃ t p, Red g g' t p := by
  unfold Gr.entryRound at h
  obtain ⟨e, he, h1⟩ := List.exists_of_findSome?_eq_some h
  simp only [List.mem_filter, Bool.and_eq_true, Option.isNone_iff_eq_none] at he
  have hm := hord g e he.1
  rcases e with ⟨t, l⟩
  obtain ⟨_, rfl, _⟩ := he
  obtain ⟨p, hp⟩ := entry_red hi hm h1
  exact ⟨t, p, hp⟩

theorem exitRound_red (hord : ∀ g, ∀ e ∈ ord g, e ∈ g.trans) {g g' : Gr α} (hi : g.Inv) (h : g.exitRound ord = some g') :
    ∃ t p, Red g g' t p := by
  unfold Gr.exitRound at h
  obtain ⟨e, he, h1⟩ := List.exists_of_findSome?_eq_some h
  simp only [List.mem_filter, Bool.and_eq_true, Option.isNone_iff_eq_none] at he
  have hm := hord g e he.1
  rcases e with ⟨t, l⟩
  obtain ⟨_, rfl, _⟩ := he
  obtain ⟨p, hp⟩ := exit_red hi hm h1
  exact ⟨t, p, hp⟩

theorem Red.length {g g' : Gr α} {t p : Nat} (h : Red g g' t p) : g'.trans.length < g.trans.length := by
  rw [h.trans]
  exact List.length_filter_lt_length_iff_exists.2 ⟨_, h.tin, by simp⟩

theorem rounds_reds {f : Gr α → Option (Gr α)} (hf : ∀ g g', g.Inv → f g = some g' → ∃ t p, Red g g' t p) (n : Nat) :
    ∀ g, g.Inv → Reds g (Gr.rounds f n g) ∧ (g.trans.length < n → f (Gr.rounds f n g) = none) := by
  induction n with
  | zero => intro g hi; exact ⟨.refl g hi, fun h => by omega⟩
  | succ n ih =>
    intro g hi
    unfold Gr.rounds
    split
    · rename_i h
      exact ⟨.refl g hi, fun _ => h⟩
    · rename_i g' h
      obtain ⟨t, p, hr⟩ := hf g g' hi h
      obtain ⟨h1, h2⟩ := ih g' hr.inv
      exact ⟨(Reds.step (.refl g hi) hr).trans h1, fun hl => h2 (by have := hr.length; omega)⟩

theorem reduceEntry_reds (hord : ∀ g, ∀ e ∈ ord g, e ∈ g.trans) {g : Gr α} (hi : g.Inv) : Reds g (g.reduceEntry ord) :=
  (rounds_reds (fun _ _ => entryRound_red hord) _ g hi).1
theorem reduceExit_reds (hord : ∀ g, ∀ e ∈ ord g, e ∈ g.trans) {g : Gr α} (hi : g.Inv) : Reds g (g.reduceExit ord) :=
  (rounds_reds (fun _ _ => exitRound_red hord) _ g hi).1

/-- the modelled number of rounds is enough for the `while` loop to end -/
theorem entry_done (hord : ∀ g, ∀ e ∈ ord g, e ∈ g.trans) {g : Gr α} (hi : g.Inv) : (g.reduceEntry ord).entryRound ord = none :=
  (rounds_reds (fun _ _ => entryRound_red hord) _ g hi).2 (Nat.lt_succ_self _)
theorem exit_done (hord : ∀ g, ∀ e ∈ ord g, e ∈ g.trans) {g : Gr α} (hi : g.Inv) : (g.reduceExit ord).exitRound ord = none :=
  (rounds_reds (fun _ _ => exitRound_red hord) _ g hi).2 (Nat.lt_succ_self _)

theorem simpleReduction_reds (hord : ∀ g, ∀ e ∈ ord g, e ∈ g.trans) {g : Gr α} (hi : g.Inv) : Reds g (g.simpleReduction ord) :=
  (reduceEntry_reds hord hi).trans (reduceExit_reds hord (reduceEntry_reds hord hi).inv)

end Conv
end Verif
