/-
Model of the business-hour durations (/repo/pm4py/util/business_hours.py).
-/
namespace Verif
namespace BH

/-- seconds of a week -/
def week : Int := 604800

/-- a slot of the week: begin and end, in seconds since Monday 0:00 -/
abbrev Slot := Int × Int

/-- the order of `sorted` on pairs (business_hours.py:77) -/
def slotLe (x y : Slot) : Bool := decide (x.1 < y.1) || (decide (x.1 = y.1) && decide (x.2 ≤ y.2))

/-- one iteration of the loop that unifies the slots (business_hours.py:77-81); the list is kept in reverse order, so that
`business_hour_slots_unified[-1]` is its head -/
def unifyStep (acc : List Slot) (s : Slot) : List Slot :=
  match acc with
  | [] => [s]
  | l :: rest => if l.2 ≥ s.1 - 1 then (l.1, max l.2 s.2) :: rest else s :: l :: rest

/-- `business_hour_slots_unified` (business_hours.py:76-81) -/
def unify (slots : List Slot) : List Slot := ((slots.mergeSort slotLe).foldl unifyStep []).reverse

/-- `get_overlapping_time` (business_hours.py:58-64) -/
def overlap (b1 e1 b2 e2 : Int) : Int := max 0 (min e1 e2 - max b1 b2)

/-- the `while` loop (business_hours.py:105-114): the following weeks, until one has no overlap -/
def weeks (d1 d2 s e : Int) : Int :=
  if h : overlap d1 d2 (s + week) (e + week) ≤ 0 then 0
  else overlap d1 d2 (s + week) (e + week) + weeks d1 d2 (s + week) (e + week)
termination_by (d2 - s).toNat
decreasing_by
  unfold overlap week at h
  unfold week
  omega

/-- midnight of the Monday before (business_hours.py:89).  Times are seconds since some Monday 0:00; the time zone is dropped by the code
(lines 69-70), fractions of seconds are not modelled. -/
def weekStart (d : Int) : Int := d - d % week

/-- one iteration of the loop over the slots (business_hours.py:91-114).  The day and second arithmetic of lines 92-100 gives
`week_start + bhs` and `week_start + bhe`. -/
def slotSeconds (d1 d2 : Int) (s : Slot) : Int :=
  overlap d1 d2 (weekStart d1 + s.1) (weekStart d1 + s.2) + weeks d1 d2 (weekStart d1 + s.1) (weekStart d1 + s.2)

/-- `BusinessHours(datetime1, datetime2, business_hour_slots=slots).get_seconds()` (business_hours.py:67-116); also
`soj_time_business_hours_diff` (lines 25-55) -/
def getSeconds (slots : List Slot) (d1 d2 : Int) : Int := ((unify slots).map (slotSeconds d1 d2)).foldl (· + ·) 0

/-- `DEFAULT_BUSINESS_HOUR_SLOTS` (/repo/pm4py/util/constants.py:121-127) -/
def defaultSlots : List Slot :=
  [((0 * 24 + 7) * 60 * 60, (0 * 24 + 17) * 60 * 60), ((1 * 24 + 7) * 60 * 60, (1 * 24 + 17) * 60 * 60),
   ((2 * 24 + 7) * 60 * 60, (2 * 24 + 17) * 60 * 60), ((3 * 24 + 7) * 60 * 60, (3 * 24 + 17) * 60 * 60),
   ((4 * 24 + 7) * 60 * 60, (4 * 24 + 17) * 60 * 60)]

end BH
end Verif
