import Mathlib.Data.List.Nodup
/-
Model of the renaming of activities to letters: /repo/pm4py/objects/log/util/activities_to_alphabet.py:66-78.  Of a data frame only the activity column is
modelled; missing values are left out.  The order of the activities (by frequency, `value_counts`) is an input: any list of the different activities.
-/
namespace Verif
namespace Alphabet

/-- the loop of activities_to_alphabet.py:70-72: `index` is the number, `result` the string so far; the index -1 ends the loop -/
def loop (index : Nat) (result : List Char) : List Char :=
  let result' := Char.ofNat (index % 26 + 65) :: result
  if h : index < 26 then result' else loop (index / 26 - 1) result'
termination_by index
decreasing_by omega

/-- the name of the activity with an index (activities_to_alphabet.py:68-73) -/
def name (index : Nat) : String := String.ofList (loop index [])

/-- remap_dict (activities_to_alphabet.py:66-73): the keys are the different activities -/
def remap (acts : List String) : List (String × String) := acts.zipIdx.map fun p => (p.1, name p.2)

/-- the renamed column (activities_to_alphabet.py:74); an activity that is not in the mapping would give a missing value -/
def rename (acts rows : List String) : List (Option String) := rows.map fun a => (remap acts).lookup a

/-- inverse_dct (activities_to_alphabet.py:76): later entries overwrite earlier ones -/
def inverse (acts : List String) : List (String × String) := ((remap acts).map fun p => (p.2, p.1)).reverse

end Alphabet
end Verif
