import Verif.Replay.Log
import Verif.Replay.StateMachine
/-
C26: instances of the hypotheses, and refutations of stronger claims.
-/
namespace Verif
open Dict Replay
namespace ReplayEx

/-- `0 -a-> 1 -τ-> 2 -b-> 3`, transitions 0 (a), 1 (hidden), 2 (b) -/
def net : Net Nat Nat where
  places := [0, 1, 2, 3]
  transitions := [0, 1, 2]
  inArcs t := [(t, 1)]
  outArcs t := [(t + 1, 1)]

def lab (t : Nat) : Option Nat := if t = 0 then some 10 else if t = 1 then none else some 11

def env : Env Nat Nat Nat where
  net := net
  lab := lab
  im := [(0, 1)]
  fm := [(3, 1)]
  nameLe := fun a b => decide (a ≤ b)
  paths := hiddenPaths net lab
  considerRemaining := true
  tryFinal := true
  stopUnfit := false
  walkHidden := true
  considerNotInModel := false

theorem posOne (k : Nat) : Pos ([(k, 1)] : Marking Nat) := by
  intro p v h; simp only [get?_cons] at h; split at h <;> simp at h; omega

theorem proper : Proper env where
  simple := ⟨by intro t _; simp [env, net], by intro t _ a h; simp [env, net] at h; simp [h],
    by intro t _ a h; simp [env, net] at h; simp [h]⟩
  imPos := posOne 0
  imNodup := by decide
  fmPos := posOne 3
  fmNodup := by decide
  hidden := fun p q l h t ht => (C26_hidden_paths_silent net lab p q l h t ht).2

theorem unit : UnitArcs env.net := by intro t _; simp [env, net]

theorem unique : UniqueLabels env.net env.lab := by
  intro t ht u hu
  simp only [env, net, List.mem_cons, List.not_mem_nil, or_false] at ht hu
  rcases ht with rfl | rfl | rfl <;> rcases hu with rfl | rfl | rfl <;> simp [env, lab]

/-- the path of one hidden transition -/
example : hiddenPaths net lab 1 2 = some [1] := by decide

-- a fitting trace (with an activity 99 that is not in the model): the hidden transition is found
example : (applyTrace env [] [10, 99, 11]).1.act = [0, 1, 2] ∧ (applyTrace env [] [10, 99, 11]).1.missing = 0 ∧
    (applyTrace env [] [10, 99, 11]).1.remaining = 0 ∧ (applyTrace env [] [10, 99, 11]).1.isFit = true := by decide
-- a trace with deviations
example : (applyTrace env [] [11, 10]).1.missing = 1 ∧ (applyTrace env [] [11, 10]).1.remaining = 1 ∧
    (applyTrace env [] [11, 10]).1.consumed = 3 ∧ (applyTrace env [] [11, 10]).1.produced = 3 ∧
    (applyTrace env [] [11, 10]).1.problems = [2] := by decide
example := C26_accounting env proper unit rfl [] [11, 10]
example := C26_fitness_one env proper rfl (by simp [env]) (by simp [env]) [] [10, 11]
example := C26_sound env proper [] [10, 99, 11] (by decide) (by decide)
example := C26_is_fit env proper rfl rfl 3 rfl (by simp [env]) (by simp [env, net]) [] [10, 11]
example := C26_problems env proper [] [11, 10]
example := C26_log env rfl true id (fun _ => .refl _) [[10, 11], [99], [10, 11]]
example := C26_log_fitness_one env proper rfl (by simp [env]) (by simp [env]) [[10, 11], [99]] (by simp)

theorem machine : StateMachine env.net (fun t => t) (fun t => t + 1) := by
  intro t ht
  simp only [env, net, List.mem_cons, List.not_mem_nil, or_false] at ht
  rcases ht with rfl | rfl | rfl <;> simp [env, net]

example : InLanguage env.net env.lab env.im env.fm (modelPart env.net env.lab [10, 99, 11]) :=
  (C26_state_machine env proper unique _ _ machine 0 3 rfl rfl (by simp [env, net]) rfl rfl rfl (by decide) [] [10, 99, 11]).1 (by decide)

/-- A net without hidden transitions. -/
def env2 : Env Nat Nat Nat := { env with lab := fun t => some t, paths := hiddenPaths net (fun t => some t) }

theorem proper2 : Proper env2 where
  simple := proper.simple
  imPos := posOne 0
  imNodup := by decide
  fmPos := posOne 3
  fmNodup := by decide
  hidden := fun p q l h t ht => (C26_hidden_paths_silent net _ p q l h t ht).2

example : InLanguage env2.net env2.lab env2.im env2.fm (modelPart env2.net env2.lab [0, 1, 7, 2]) :=
  (C26_exact env2 proper2 (by intro t _ u _ h _; simpa [env2] using h) (by simp [env2]) [] [0, 1, 7, 2]).1 (by decide)
example := C26_complete env2 proper2 (by intro t _ u _ h _; simpa [env2] using h) [] [0, 1, 2] [0, 1, 2] [(3, 1)] rfl
  (fun _ => rfl) (by simp [env2]) (by decide)

end ReplayEx

/-! ### Refutations -/

theorem Replay.fitness_eq {P T A : Type} [DecidableEq P] [DecidableEq T] [DecidableEq A] (e : Env P T A) (ne w : List A) :
    (applyTrace e ne w).1.fitness = fitness (applyTrace e ne w).1.missing (applyTrace e ne w).1.consumed
      (applyTrace e ne w).1.remaining (applyTrace e ne w).1.produced := rfl

namespace ReplayBad

/-- transition 0 (activity 10) consumes two tokens of place 0 and produces one on place 1 -/
def weighted : Env Nat Nat Nat :=
  { ReplayEx.env with
    net := { places := [0, 1], transitions := [0], inArcs := fun _ => [(0, 2)], outArcs := fun _ => [(1, 1)] }
    lab := fun _ => some 10, im := [(0, 1)], fm := [(1, 1)], paths := fun _ _ => none }

theorem weighted_proper : Proper weighted where
  simple := ⟨by intro t _; simp [weighted], by intro t _ a h; simp [weighted] at h; simp [h],
    by intro t _ a h; simp [weighted] at h; simp [h]⟩
  imPos := ReplayEx.posOne 0
  imNodup := by decide
  fmPos := ReplayEx.posOne 1
  fmNodup := by decide
  hidden := by intro p q l h; simp [weighted] at h

end ReplayBad

/-- With weighted arcs the counters do not balance: `add_missing_tokens` adds the whole weight but reports the deficit. -/
theorem C26_accounting_refuted : ¬ ∀ (e : Env Nat Nat Nat), Proper e → e.stopUnfit = false → ∀ w,
    (applyTrace e [] w).1.produced + (applyTrace e [] w).1.missing =
      (applyTrace e [] w).1.consumed + (applyTrace e [] w).1.remaining := by
  intro h
  exact absurd (h ReplayBad.weighted ReplayBad.weighted_proper rfl [10]) (by decide)

namespace ReplayBad

/-- stop at the first problem -/
def stop : Env Nat Nat Nat := { ReplayEx.env with stopUnfit := true }

theorem stop_proper : Proper stop := ⟨ReplayEx.proper.simple, ReplayEx.posOne 0, by decide, ReplayEx.posOne 3, by decide, ReplayEx.proper.hidden⟩

end ReplayBad

/-- With `stop_immediately_unfit` the fitness of a trace may be negative. -/
theorem C26_fitness_range_stop_refuted : ¬ ∀ (e : Env Nat Nat Nat), Proper e → ∀ w, 0 ≤ (applyTrace e [] w).1.fitness := by
  intro h
  have h1 := h ReplayBad.stop ReplayBad.stop_proper [11]
  have hf : (applyTrace ReplayBad.stop [] [11]).1.fitness = fitness 2 1 1 1 := by
    have : ((applyTrace ReplayBad.stop [] [11]).1.missing, (applyTrace ReplayBad.stop [] [11]).1.consumed,
      (applyTrace ReplayBad.stop [] [11]).1.remaining, (applyTrace ReplayBad.stop [] [11]).1.produced) = (2, 1, 1, 1) := by decide
    simp only [Prod.mk.injEq] at this
    obtain ⟨a, b, c, d⟩ := this
    have hr := Replay.fitness_eq ReplayBad.stop [] [11]
    rw [a, b, c, d] at hr; exact hr
  rw [hf] at h1
  norm_num [fitness] at h1

namespace ReplayBad

/-- final marking without tokens -/
def noFinal : Env Nat Nat Nat := { ReplayEx.env with fm := [] }

theorem noFinal_proper : Proper noFinal :=
  ⟨ReplayEx.proper.simple, ReplayEx.posOne 0, by decide, by intro p v h; simp [noFinal] at h, by decide, ReplayEx.proper.hidden⟩

/-- initial marking without tokens -/
def noInitial : Env Nat Nat Nat := { ReplayEx.env with im := [] }

theorem noInitial_proper : Proper noInitial :=
  ⟨ReplayEx.proper.simple, by intro p v h; simp [noInitial] at h, by decide, ReplayEx.posOne 3, by decide, ReplayEx.proper.hidden⟩

end ReplayBad

/-- If nothing is consumed or nothing is produced, the fitness is 1 although tokens remain or are missing. -/
theorem C26_fitness_one_refuted :
    (Proper ReplayBad.noFinal ∧ (applyTrace ReplayBad.noFinal [] []).1.fitness = 1 ∧ (applyTrace ReplayBad.noFinal [] []).1.remaining = 1) ∧
    (Proper ReplayBad.noInitial ∧ (applyTrace ReplayBad.noInitial [] []).1.fitness = 1 ∧ (applyTrace ReplayBad.noInitial [] []).1.missing = 1) := by
  refine ⟨⟨ReplayBad.noFinal_proper, ?_, by decide⟩, ReplayBad.noInitial_proper, ?_, by decide⟩
  · have : (applyTrace ReplayBad.noFinal [] []).1.consumed = 0 := by decide
    rw [Replay.fitness_eq, this]; simp [fitness]
  · have : (applyTrace ReplayBad.noInitial [] []).1.produced = 0 := by decide
    rw [Replay.fitness_eq, this]; simp [fitness]

namespace ReplayBad

/-- the final marking needs tokens on the places 0 and 1; only place 0 is marked -/
def subFinal : Env Nat Nat Nat := { ReplayEx.env with fm := [(0, 1), (3, 1)], tryFinal := true }

theorem subFinal_proper : Proper subFinal :=
  ⟨ReplayEx.proper.simple, ReplayEx.posOne 0, by decide,
    by intro p v h; simp only [subFinal, get?_cons] at h; split at h <;> (try split at h) <;> simp at h <;> omega,
    by decide, ReplayEx.proper.hidden⟩

end ReplayBad

/-- `is_fit` is decided before the tokens missing in the final marking are added: a trace that does not reach the final
marking may be reported as fitting, with missing tokens and fitness below 1. -/
theorem C26_is_fit_refuted : Proper ReplayBad.subFinal ∧ (applyTrace ReplayBad.subFinal [] []).1.isFit = true ∧
    (applyTrace ReplayBad.subFinal [] []).1.missing = 1 ∧
    ¬ InLanguage ReplayBad.subFinal.net ReplayBad.subFinal.lab ReplayBad.subFinal.im ReplayBad.subFinal.fm [] := by
  refine ⟨ReplayBad.subFinal_proper, by decide, by decide, ?_⟩
  rintro ⟨ts, m, hf, hm, -⟩
  -- every transition moves one token
  have hinv : ∀ (ts : List Nat) (m m' : Marking Nat), (keys m).Nodup → ReplayEx.net.FiringSequence m ts m' → tokens m' = tokens m := by
    intro ts m m' hn hf
    have h := (Replay.fseq_tokens hf hn).2
    have e1 : consumedTokens ReplayEx.net = fun _ => 1 := by funext t; rfl
    have e2 : producedTokens ReplayEx.net = fun _ => 1 := by funext t; rfl
    rw [e1, e2] at h
    omega
  have hp : Pos m := Replay.fseq_pos ReplayBad.subFinal_proper.simple hf ReplayBad.subFinal_proper.imPos
  have hn : (keys m).Nodup := (Replay.fseq_tokens hf ReplayBad.subFinal_proper.imNodup).1
  have h1 := hinv ts _ m (by decide) hf
  have hb := remaining_deficit ReplayBad.subFinal.fm m hn hp ReplayBad.subFinal_proper.fmNodup ReplayBad.subFinal_proper.fmPos
  have hd := (finalDeficit_zero ReplayBad.subFinal.fm m ReplayBad.subFinal_proper.fmNodup hp).2 fun p => by rw [hm p]
  have hr := (remaining_zero ReplayBad.subFinal.fm m hn hp ReplayBad.subFinal_proper.fmPos).2 fun p => by rw [hm p]
  have t1 : tokens ReplayBad.subFinal.fm = 2 := by decide
  have t2 : tokens ReplayBad.subFinal.im = 1 := by decide
  change tokens m = tokens ReplayBad.subFinal.im at h1
  omega

namespace ReplayBad

/-- two transitions with label 10 from place 0: to place 1 (transition 0) and to place 2 (transition 1); transition 2 with
label 11 from place 2 to place 3 -/
def dup : Env Nat Nat Nat :=
  { ReplayEx.env with
    net := { places := [0, 1, 2, 3], transitions := [0, 1, 2], inArcs := fun t => [(if t = 2 then 2 else 0, 1)],
             outArcs := fun t => [(t + 1, 1)] }
    lab := fun t => some (if t = 2 then 11 else 10), paths := fun _ _ => none }

theorem dup_proper : Proper dup where
  simple := ⟨by intro t _; simp [dup], by intro t _ a h; simp [dup] at h; simp [h], by intro t _ a h; simp [dup] at h; simp [h]⟩
  imPos := ReplayEx.posOne 0
  imNodup := by decide
  fmPos := ReplayEx.posOne 3
  fmNodup := by decide
  hidden := by intro p q l h; simp [dup] at h

end ReplayBad

/-- With duplicate labels a trace of the net may be reported with missing tokens. -/
theorem C26_complete_duplicates_refuted :
    Proper ReplayBad.dup ∧ (∀ t, ReplayBad.dup.lab t ≠ none) ∧
    InLanguage ReplayBad.dup.net ReplayBad.dup.lab ReplayBad.dup.im ReplayBad.dup.fm [10, 11] ∧
    (applyTrace ReplayBad.dup [] [10, 11]).1.missing = 1 ∧ (applyTrace ReplayBad.dup [] [10, 11]).1.isFit = false :=
  ⟨ReplayBad.dup_proper, by simp [ReplayBad.dup], ⟨[1, 2], [(3, 1)], rfl, fun _ => rfl, by decide⟩, by decide, by decide⟩

namespace ReplayBad

/-- Places 0 and 1 are marked.  Hidden: 0 moves a token from 0 to 3; 1 and 2 move a token from 1 over 2 to 3.  Visible: 3
(activity 10) from 3 to 4, 4 (activity 11) from 0 to 5. -/
def greedyNet : Net Nat Nat where
  places := [0, 1, 2, 3, 4, 5]
  transitions := [0, 1, 2, 3, 4]
  inArcs t := [(if t = 4 then 0 else t, 1)]
  outArcs t := [(if t = 0 then 3 else t + 1, 1)]

def greedyLab (t : Nat) : Option Nat := if t = 3 then some 10 else if t = 4 then some 11 else none

def greedy : Env Nat Nat Nat :=
  { ReplayEx.env with
    net := greedyNet, lab := greedyLab, im := [(0, 1), (1, 1)], fm := [(4, 1), (5, 1)], paths := hiddenPaths greedyNet greedyLab }

theorem greedy_proper : Proper greedy where
  simple := ⟨by intro t _; simp [greedy, greedyNet], by intro t _ a h; simp [greedy, greedyNet] at h; simp [h],
    by intro t _ a h; simp [greedy, greedyNet] at h; simp [h]⟩
  imPos := by intro p v h; simp only [greedy, get?_cons] at h; split at h <;> (try split at h) <;> simp at h <;> omega
  imNodup := by decide
  fmPos := by intro p v h; simp only [greedy, get?_cons] at h; split at h <;> (try split at h) <;> simp at h <;> omega
  fmNodup := by decide
  hidden := fun p q l h t ht => (C26_hidden_paths_silent greedyNet greedyLab p q l h t ht).2

end ReplayBad

/-- With hidden transitions a trace of the net may be reported with missing tokens, even if labels are unique and no place
ever holds two tokens: the shortest hidden path may use a token that is needed later. -/
theorem C26_complete_hidden_refuted :
    Proper ReplayBad.greedy ∧ UniqueLabels ReplayBad.greedy.net ReplayBad.greedy.lab ∧
    InLanguage ReplayBad.greedy.net ReplayBad.greedy.lab ReplayBad.greedy.im ReplayBad.greedy.fm [10, 11] ∧
    (applyTrace ReplayBad.greedy [] [10, 11]).1.missing = 1 ∧ (applyTrace ReplayBad.greedy [] [10, 11]).1.isFit = false := by
  refine ⟨ReplayBad.greedy_proper, ?_, ⟨[1, 2, 3, 4], [(4, 1), (5, 1)], rfl, fun _ => rfl, by decide⟩, by decide, by decide⟩
  intro t ht u hu
  simp only [ReplayBad.greedy, ReplayBad.greedyNet, List.mem_cons, List.not_mem_nil, or_false] at ht hu
  rcases ht with rfl | rfl | rfl | rfl | rfl <;> rcases hu with rfl | rfl | rfl | rfl | rfl <;> simp [ReplayBad.greedy, ReplayBad.greedyLab]

namespace ReplayBad
/-- activities not in the model make a trace unfit -/
def strict : Env Nat Nat Nat := { ReplayEx.env with considerNotInModel := true }
end ReplayBad

/-- With `consider_activities_not_in_model_in_fitness` the result of a trace depends on the traces replayed before: the
dictionary of unknown activities is shared by the log. -/
theorem C26_log_refuted : (applyTrace ReplayBad.strict [] [10, 11]).1.isFit = true ∧
    ((applyLog ReplayBad.strict false id [[99], [10, 11]]).map fun r => r.map (·.isFit)) = [some false, some false] := by
  decide

end Verif
