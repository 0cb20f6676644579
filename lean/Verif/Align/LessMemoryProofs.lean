import Verif.Align.LessMemory
/-
Proofs about the memory-efficient Dijkstra search (C33).
-/
namespace Verif
open Dict Align
namespace LM
variable {T A : Type}

/-! ### Sorting and encoding -/

theorem insertBy_perm {X : Type} (key : X → Int) (x : X) (l : List X) : (insertBy key x l).Perm (x :: l) := by
  induction l with
  | nil => exact List.Perm.refl _
  | cons y l ih =>
    unfold insertBy
    split
    · exact List.Perm.refl _
    · exact (ih.cons y).trans (List.Perm.swap _ _ _)

theorem sortBy_perm {X : Type} (key : X → Int) (l : List X) : (sortBy key l).Perm l := by
  have : ∀ (l acc : List X), (l.foldl (fun acc x => insertBy key x acc) acc).Perm (l ++ acc) := by
    intro l; induction l with
    | nil => intro acc; exact List.Perm.refl _
    | cons x l ih =>
      intro acc
      rw [List.foldl_cons]
      refine (ih _).trans ?_
      refine ((insertBy_perm key x acc).append_left l).trans ?_
      exact List.perm_middle
  have := this l []
  rw [List.append_nil] at this
  exact this

theorem insertBy_sorted (x : Nat) (l : List Nat) (h : l.Pairwise (· ≤ ·)) :
    (insertBy (fun k : Nat => (k : Int)) x l).Pairwise (· ≤ ·) := by
  induction l with
  | nil => simp [insertBy]
  | cons y l ih =>
    rw [List.pairwise_cons] at h
    unfold insertBy
    split
    · rename_i hlt
      rw [List.pairwise_cons]
      refine ⟨?_, List.pairwise_cons.2 h⟩
      intro z hz
      rcases List.mem_cons.1 hz with rfl | hz
      · omega
      · have := h.1 z hz; omega
    · rename_i hlt
      rw [List.pairwise_cons]
      refine ⟨?_, ih h.2⟩
      intro z hz
      rcases List.mem_cons.1 ((insertBy_perm _ x l).mem_iff.1 hz) with rfl | hz
      · omega
      · exact h.1 z hz

theorem sortBy_sorted (l : List Nat) : (sortBy (fun k : Nat => (k : Int)) l).Pairwise (· ≤ ·) := by
  have : ∀ (l acc : List Nat), acc.Pairwise (· ≤ ·) →
      (l.foldl (fun acc x => insertBy (fun k : Nat => (k : Int)) x acc) acc).Pairwise (· ≤ ·) := by
    intro l; induction l with
    | nil => intro acc h; exact h
    | cons x l ih => intro acc h; exact ih _ (insertBy_sorted x acc h)
  exact this l [] (by simp)

theorem count_blocks (ks : List Nat) (f : Nat → Nat) (h : ks.Nodup) (p : Nat) :
    (ks.flatMap fun k => List.replicate (f k) k).count p = if p ∈ ks then f p else 0 := by
  induction ks with
  | nil => simp
  | cons k ks ih =>
    rw [List.nodup_cons] at h
    rw [List.flatMap_cons, List.count_append, ih h.2, List.count_replicate]
    by_cases hk : k = p
    · subst hk; simp [h.1]
    · have : ¬ p = k := fun e => hk e.symm
      simp [hk, this]

theorem sorted_blocks (ks : List Nat) (f : Nat → Nat) (h : ks.Pairwise (· ≤ ·)) :
    (ks.flatMap fun k => List.replicate (f k) k).Pairwise (· ≤ ·) := by
  induction ks with
  | nil => simp
  | cons k ks ih =>
    rw [List.pairwise_cons] at h
    rw [List.flatMap_cons, List.pairwise_append]
    refine ⟨?_, ih h.2, ?_⟩
    · rw [List.pairwise_replicate]; right; omega
    · intro a ha b hb
      obtain ⟨c, hc, hb⟩ := List.mem_flatMap.1 hb
      rw [List.eq_of_mem_replicate ha, List.eq_of_mem_replicate hb]
      exact h.1 c hc

/-- tokens of an encoded marking -/
def tok (l : List Nat) : Nat → Int := fun p => (l.count p : Int)

theorem tok_encode (m : Dict Nat Int) (hn : (keys m).Nodup) (h0 : ∀ p, 0 ≤ count m p) (p : Nat) :
    tok (encode m) p = count m p := by
  unfold tok encode
  rw [count_blocks _ _ ((sortBy_perm _ _).nodup_iff.2 hn)]
  split
  · exact Int.toNat_of_nonneg (h0 p)
  · rename_i hp
    rw [(sortBy_perm _ _).mem_iff, mem_keys_iff] at hp
    have : get? m p = none := by simpa using hp
    simp [count, this]

theorem encode_sorted (m : Dict Nat Int) : (encode m).Pairwise (· ≤ ·) := sorted_blocks _ _ (sortBy_sorted _)

theorem sorted_ext {l1 l2 : List Nat} (h1 : l1.Pairwise (· ≤ ·)) (h2 : l2.Pairwise (· ≤ ·)) (h : tok l1 = tok l2) : l1 = l2 := by
  refine List.Perm.eq_of_pairwise (le := (· ≤ ·)) (fun a b _ _ => Nat.le_antisymm) h1 h2 ?_
  rw [List.perm_iff_count]
  intro p
  have := congrFun h p
  simp only [tok] at this
  omega

/-! ### Decoding -/

/-- one iteration of `__decode_marking` -/
def dstep (d : Dict Nat Int) (el : Nat) : Dict Nat Int :=
  if Dict.has d el then Dict.set d el (Dict.count d el + 1) else Dict.set d el 1

theorem dstep_eq (d : Dict Nat Int) (el : Nat) : dstep d el = Dict.set d el (Dict.count d el + 1) := by
  unfold dstep
  split
  · rfl
  · rename_i h
    have : count d el = 0 := by unfold count; simp [Dict.has] at h; simp [h]
    rw [this]; rfl

theorem decode_fold (l : List Nat) (d : Dict Nat Int) (hn : (keys d).Nodup) (hp : Pos d) :
    (keys (l.foldl dstep d)).Nodup ∧ Pos (l.foldl dstep d) ∧ ∀ p, count (l.foldl dstep d) p = count d p + tok l p := by
  induction l generalizing d with
  | nil => exact ⟨hn, hp, fun p => by simp [tok]⟩
  | cons x l ih =>
    rw [List.foldl_cons, dstep_eq]
    have h0 := hp.count_nonneg x
    obtain ⟨h1, h2, h3⟩ := ih _ (nodup_set hn x (count d x + 1)) (Net.pos_set hp x _ (by omega))
    refine ⟨h1, h2, fun p => ?_⟩
    rw [h3, count_set]
    simp only [tok, List.count_cons]
    by_cases hx : x = p
    · subst hx; simp; omega
    · simp [hx]

theorem decode_spec (l : List Nat) : (keys (decode l)).Nodup ∧ Pos (decode l) ∧ ∀ p, count (decode l) p = tok l p := by
  have := decode_fold l [] (by simp) (by intro k v h; simp at h)
  exact ⟨this.1, this.2.1, fun p => by rw [show decode l = l.foldl dstep [] from rfl, this.2.2]; simp⟩

/-! ### Firing -/

theorem preDict_get? (net : Net Nat T) (t : T) (h : ((net.inArcs t).map Prod.fst).Nodup) (p : Nat) :
    get? (preDict net t) p = get? (net.inArcs t) p := Marking.copy_get? _ h p
theorem postDict_get? (net : Net Nat T) (t : T) (h : ((net.outArcs t).map Prod.fst).Nodup) (p : Nat) :
    get? (postDict net t) p = get? (net.outArcs t) p := Marking.copy_get? _ h p

theorem preDict_nodup (net : Net Nat T) (t : T) : (keys (preDict net t)).Nodup :=
  Marking.nodup_foldl_set (f := fun _ e => e.2) _ _ (by simp)
theorem postDict_nodup (net : Net Nat T) (t : T) : (keys (postDict net t)).Nodup :=
  Marking.nodup_foldl_set (f := fun _ e => e.2) _ _ (by simp)

theorem preDict_count (net : Net Nat T) (t : T) (h : ((net.inArcs t).map Prod.fst).Nodup) (p : Nat) :
    count (preDict net t) p = arcWeight (net.inArcs t) p := by
  rw [Marking.count_eq_of_get? (preDict_get? net t h p), Marking.arcWeight_eq_count _ h]
theorem postDict_count (net : Net Nat T) (t : T) (h : ((net.outArcs t).map Prod.fst).Nodup) (p : Nat) :
    count (postDict net t) p = arcWeight (net.outArcs t) p := by
  rw [Marking.count_eq_of_get? (postDict_get? net t h p), Marking.arcWeight_eq_count _ h]

/-- nets whose arcs the dictionaries represent faithfully: no parallel arcs, positive weights -/
structure Plain (net : Net Nat T) : Prop where
  simple : net.Simple
  noParallelOut : ∀ t ∈ net.transitions, ((net.outArcs t).map Prod.fst).Nodup

theorem dictLeq_iff (net : Net Nat T) (h : Plain net) (t : T) (ht : t ∈ net.transitions) (m : List Nat) :
    dictLeq (preDict net t) (decode m) = true ↔ ∀ p, arcWeight (net.inArcs t) p ≤ tok m p := by
  have hn := h.simple.noParallel t ht
  obtain ⟨_, d2, d3⟩ := decode_spec m
  unfold dictLeq
  rw [List.all_eq_true]
  constructor
  · intro hall p
    rw [← preDict_count net t hn, ← d3]
    by_cases hp : p ∈ keys (preDict net t)
    · obtain ⟨e, he, rfl⟩ := List.mem_map.1 hp
      have := hall e he
      simp only [Bool.and_eq_true, Bool.not_eq_true', decide_eq_false_iff_not] at this
      have h1 : count (preDict net t) e.1 = e.2 := by
        unfold count; rw [get?_of_mem_nodup (preDict_nodup net t) (k := e.1) (v := e.2) he]; rfl
      rw [h1]
      have := this.2
      unfold count; omega
    · have : count (preDict net t) p = 0 := by
        rw [mem_keys_iff] at hp
        have : get? (preDict net t) p = none := by simpa using hp
        simp [count, this]
      rw [this]; exact d2.count_nonneg p
  · intro hall e he
    have h1 : count (preDict net t) e.1 = e.2 := by
      unfold count; rw [get?_of_mem_nodup (preDict_nodup net t) (k := e.1) (v := e.2) he]; rfl
    have h2 := hall e.1
    rw [← preDict_count net t hn, h1, ← d3] at h2
    have hpos : 1 ≤ e.2 := by
      have hg : get? (preDict net t) e.1 = some e.2 := get?_of_mem_nodup (preDict_nodup net t) (k := e.1) (v := e.2) he
      rw [preDict_get? net t hn] at hg
      exact h.simple.inPos t ht (e.1, e.2) (mem_of_get? hg)
    simp only [Bool.and_eq_true, Bool.not_eq_true', decide_eq_false_iff_not]
    constructor
    · unfold Dict.has; rw [d2.get?_eq]
      have : count (decode m) e.1 ≠ 0 := by omega
      simp [this]
    · unfold count at h2; omega

/-- one iteration of the first loop of `__fire_trans` -/
def fstep (pre : Dict Nat Int) (ret : Dict Nat Int) (e : Nat × Int) : Dict Nat Int :=
  match Dict.get? pre e.1 with
  | some w => if 0 < e.2 - w then Dict.set ret e.1 (e.2 - w) else ret
  | none => Dict.set ret e.1 e.2

theorem fstep_fold (pre : Dict Nat Int) (m ret : Dict Nat Int) (hn : (keys m).Nodup)
    (hd : ∀ e ∈ m, get? ret e.1 = none) (hle : ∀ e ∈ m, count pre e.1 ≤ e.2) (p : Nat) :
    count (m.foldl (fstep pre) ret) p = if p ∈ keys m then count m p - count pre p else count ret p := by
  induction m generalizing ret with
  | nil => simp
  | cons e m ih =>
    obtain ⟨k, v⟩ := e
    simp only [keys, List.map_cons, List.nodup_cons] at hn
    rw [List.foldl_cons]
    have hk := hd (k, v) List.mem_cons_self
    have hl := hle (k, v) List.mem_cons_self
    have hrk : ∀ q, q ≠ k → get? (fstep pre ret (k, v)) q = get? ret q := by
      intro q hq
      unfold fstep
      simp only
      split
      · split
        · rw [get?_set, if_neg (fun e => hq e.symm)]
        · rfl
      · rw [get?_set, if_neg (fun e => hq e.symm)]
    have hck : count (fstep pre ret (k, v)) k = v - count pre k := by
      unfold fstep
      simp only at hl hk ⊢
      split
      · rename_i w hw
        have hcw : count pre k = w := by simp [count, hw]
        split
        · rw [count_set, if_pos rfl, hcw]
        · have : count ret k = 0 := by simp [count, hk]
          omega
      · rename_i hw
        have hcw : count pre k = 0 := by simp [count, hw]
        rw [count_set, if_pos rfl, hcw]; omega
    rw [ih _ hn.2 (by
      intro e he
      rw [hrk]
      · exact hd e (List.mem_cons_of_mem _ he)
      · intro e'; exact hn.1 (List.mem_map.2 ⟨e, he, e'⟩)) (fun e he => hle e (List.mem_cons_of_mem _ he))]
    by_cases hp : p = k
    · subst hp
      have h1 : p ∉ keys m := hn.1
      have h2 : p ∈ keys ((p, v) :: m) := by simp [keys]
      rw [if_neg h1, if_pos h2, hck]
      simp [count, get?]
    · have hkp : ¬ k = p := fun e => hp e.symm
      have h2 : p ∈ keys ((k, v) :: m) ↔ p ∈ keys m := by simp [keys, hp]
      by_cases h1 : p ∈ keys m
      · rw [if_pos h1, if_pos (h2.2 h1)]
        simp [count, get?, hkp]
      · rw [if_neg h1, if_neg (fun h => h1 (h2.1 h))]
        unfold count; rw [hrk p hp]

theorem fstep_nodup (pre : Dict Nat Int) (m ret : Dict Nat Int) (h : (keys ret).Nodup) : (keys (m.foldl (fstep pre) ret)).Nodup := by
  induction m generalizing ret with
  | nil => exact h
  | cons e m ih =>
    rw [List.foldl_cons]; apply ih
    unfold fstep
    split
    · split
      · exact nodup_set h _ _
      · exact h
    · exact nodup_set h _ _

/-- one iteration of the second loop of `__fire_trans` -/
def pstep (ret : Dict Nat Int) (e : Nat × Int) : Dict Nat Int :=
  if Dict.has ret e.1 then Dict.set ret e.1 (Dict.count ret e.1 + e.2) else Dict.set ret e.1 e.2

theorem pstep_fold (post ret : Dict Nat Int) (p : Nat) : count (post.foldl pstep ret) p = count ret p + arcWeight post p := by
  induction post generalizing ret with
  | nil => simp
  | cons e post ih =>
    rw [List.foldl_cons, ih, arcWeight_cons]
    unfold pstep
    split
    · rw [count_set]; split
      · rename_i h; subst h; omega
      · omega
    · rename_i hh
      rw [count_set]; split
      · rename_i h; subst h
        have : count ret e.1 = 0 := by unfold count; simp [Dict.has] at hh; simp [hh]
        omega
      · omega

theorem pstep_nodup (post ret : Dict Nat Int) (h : (keys ret).Nodup) : (keys (post.foldl pstep ret)).Nodup := by
  induction post generalizing ret with
  | nil => exact h
  | cons e post ih => rw [List.foldl_cons]; apply ih; unfold pstep; split <;> exact nodup_set h _ _

theorem fireTrans_eq (m pre post : Dict Nat Int) : fireTrans m pre post = post.foldl pstep (m.foldl (fstep pre) []) := rfl

/-- marking after firing `t` in the encoded marking `m` -/
def next (net : Net Nat T) (m : List Nat) (t : T) : List Nat := encode (fireTrans (decode m) (preDict net t) (postDict net t))

theorem next_sorted (net : Net Nat T) (m : List Nat) (t : T) : (next net m t).Pairwise (· ≤ ·) := encode_sorted _

theorem next_tok (net : Net Nat T) (h : Plain net) (t : T) (ht : t ∈ net.transitions) (m : List Nat)
    (he : ∀ p, arcWeight (net.inArcs t) p ≤ tok m p) (p : Nat) :
    tok (next net m t) p = tok m p - arcWeight (net.inArcs t) p + arcWeight (net.outArcs t) p := by
  have hn := h.simple.noParallel t ht
  have hno := h.noParallelOut t ht
  obtain ⟨d1, d2, d3⟩ := decode_spec m
  have hle : ∀ e ∈ decode m, count (preDict net t) e.1 ≤ e.2 := by
    intro e hee
    have h1 : count (decode m) e.1 = e.2 := by
      unfold count; rw [get?_of_mem_nodup d1 (k := e.1) (v := e.2) hee]; rfl
    rw [preDict_count net t hn, ← h1, d3]; exact he e.1
  have hc : ∀ q, count (fireTrans (decode m) (preDict net t) (postDict net t)) q =
      tok m q - arcWeight (net.inArcs t) q + arcWeight (net.outArcs t) q := by
    intro q
    rw [fireTrans_eq, pstep_fold, fstep_fold _ _ _ d1 (by simp) hle, Marking.arcWeight_eq_count _ (postDict_nodup net t),
      postDict_count net t hno, preDict_count net t hn, d3]
    split
    · rfl
    · rename_i hq
      have h0 : tok m q = 0 := by
        rw [← d3]
        rw [mem_keys_iff] at hq
        have : get? (decode m) q = none := by simpa using hq
        simp [count, this]
      have h1 := he q
      have h2 := arcWeight_nonneg (as := net.inArcs t) (fun a ha => by have := h.simple.inPos t ht a ha; omega) q
      simp; omega
  unfold next
  rw [tok_encode _ (by rw [fireTrans_eq]; exact pstep_nodup _ _ (fstep_nodup _ _ _ (by simp))), hc]
  intro q
  rw [hc]
  have h1 := he q
  have h2 := arcWeight_nonneg (as := net.outArcs t) (fun a ha => by have := h.simple.outPos t ht a ha; omega) q
  omega

end LM
end Verif
