/-!
Model of `toffee/utils/two_bits_counter.py`.
-/

namespace Toffee.TwoBits

/-- `TwoBitsCounter.update` (`two_bits_counter.py` 14-18) on the counter value. -/
def update (c : Int) (taken : Bool) : Int :=
  if taken then min (c + 1) 3 else max (c - 1) 0

/-- `TwoBitsCounter.get_prediction` (`two_bits_counter.py` 20-21). -/
def prediction (c : Int) : Nat := if c > 1 then 1 else 0

/-- The counter after `TwoBitsCounter(init)` (`two_bits_counter.py` 11-12) and a history of
`update` calls, oldest first. -/
def run (init : Int) (history : List Bool) : Int := history.foldl update init

end Toffee.TwoBits
