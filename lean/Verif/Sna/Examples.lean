import Verif.Sna.Theorems
/-
Examples and limits for C73.
-/
set_option linter.unusedSectionVars false
namespace Verif
open Sna Dict
namespace Sna

/-- four traces, three variants -/
def exLog : List (List String) := [["ann", "bob", "ann"], ["ann", "cid", "ann", "bob"], ["ann", "bob", "ann"], ["dan"]]

example : handover 0 (variants exLog) = some [(("ann", "bob"), 3 / 7), (("ann", "cid"), 1 / 7), (("bob", "ann"), 2 / 7), (("cid", "ann"), 1 / 7)] := by
  decide +kernel

/-- the hypotheses of the handover theorems are met -/
example : ∃ c, handover (1 / 2) (variants exLog) = some c ∧ (c.map Prod.snd).sum = 1 :=
  C73_handover_sum (1 / 2) (by norm_num) exLog _ (List.Perm.refl _) ⟨_, List.mem_cons_self, by decide⟩

example : Hands 0 "cid" "ann" ["ann", "cid", "ann", "bob"] := ⟨1, 2, by omega, fun _ => rfl, rfl, rfl⟩
example : ¬ Hands 0 "cid" "bob" ["ann", "cid", "ann", "bob"] := by
  rw [← mem_updates 0 1]
  decide +kernel
example : handed (1 / 2) "ann" "bob" ["ann", "cid", "ann", "bob"] = 1 + 1 / 4 := by decide +kernel

example : subcontracting 2 (variants exLog) = [(("ann", "bob"), 1 / 2)] := by decide +kernel

end Sna

/-- C73, limits: `ann` subcontracts to `cid` in the second trace, as often as to `bob` in the first trace, but the subcontracting network has no entry
for it: only the first subcontracting of a resource is counted. -/
theorem C73_subcontracting_refuted :
    get? (subcontracting 2 (variants [["ann", "bob", "ann"], ["ann", "cid", "ann"]])) ("ann", "cid") = none ∧
    SubAt 2 "ann" ["ann", "cid", "ann"] 0 ∧ between 2 ["ann", "cid", "ann"] 0 = ["cid"] := by
  refine ⟨by decide +kernel, ⟨rfl, rfl⟩, rfl⟩

/-- C73, limits: the order of the traces decides which subcontracting is reported. -/
theorem C73_subcontracting_order :
    get? (subcontracting 2 (variants [["ann", "cid", "ann"], ["ann", "bob", "ann"]])) ("ann", "cid") = some (1 / 2) := by decide +kernel

/-- C73, limits: two resources that work together in the only case are at 1 in the network of the event log and at 1/2 in the network of the data
frame. -/
theorem C73_together_df_refuted :
    get? (together id [["ann", "bob"]] (variants [["ann", "bob"]])) ("ann", "bob") = some 1 ∧
    get? (togetherDf id [["ann", "bob"]] (variants [["ann", "bob"]])) ("ann", "bob") = some (1 / 2) := by decide +kernel

end Verif
