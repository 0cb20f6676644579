import Verif.LiveStream.Model
set_option linter.unusedSectionVars false
/-
C79, specification: what the users of a live event stream see of a schedule.
-/
namespace Verif
namespace LiveStream
variable {ω ε : Type} [DecidableEq ω]

/-- the events among some calls of `receive` that are calls of the observer `o`, in order -/
def recv (o : ω) (l : List (ω × ε)) : List ε := (l.filter fun p => p.1 = o).map Prod.snd

/-- the events handed to `append` in a schedule, in order -/
def appended (acts : List (Act ε)) : List ε := acts.filterMap fun a => match a with | .append e => some e | _ => none

/-- the number of calls of `stop` in a schedule -/
def stopCalls (acts : List (Act ε)) : Nat := acts.countP fun a => match a with | .stopCall => true | _ => false

/-- the steps the stream does on its own -/
def Act.internal : Act ε → Bool
  | .append _ => false
  | .start => false
  | .stopCall => false
  | _ => true

/-- `start` is called, and `stop` is not called before -/
def StartFirst (acts : List (Act ε)) : Prop := ∃ pre post, acts = pre ++ .start :: post ∧ stopCalls pre = 0

/-- nothing more happens unless somebody calls a method of the stream -/
def Quiet (n : Nat) (obs : List ω) (s : State ω ε) : Prop := ∀ a : Act ε, a.internal = true → step n obs s a = none

end LiveStream
end Verif
