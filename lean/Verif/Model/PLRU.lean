/-!
Model of `toffee/utils/plru.py`.
-/

namespace Toffee.PLRU

/-- `PLRU.bits` (`plru.py` 10-12): `bits layer pos`.  Simplification: the list of lists is a total
function; the code only ever touches positions `pos < 2^layer` with `layer < bits_layer_num`, which
exist, so no `IndexError` is possible.  The bit value `1` is `true`. -/
abbrev Bits := Nat → Nat → Bool

/-- `math.ceil(math.log2(ways_num))` (`plru.py` 9) for `ways_num ≥ 1`.  Simplification: exact
integer arithmetic instead of binary64, which agrees for every `ways_num` below `2^48`. -/
def layers (ways : Nat) : Nat := if ways ≤ 1 then 0 else Nat.log2 (ways - 1) + 1

/-- `PLRU.__init__` (`plru.py` 10-12): all bits zero. -/
def init : Bits := fun _ _ => false

/-- Assignment `self.bits[i][pos] = b`. -/
def setBit (bits : Bits) (i pos : Nat) (b : Bool) : Bits :=
  fun i' pos' => if i' = i ∧ pos' = pos then b else bits i' pos'

/-- The loop body of `PLRU.update` (`plru.py` 15-18), for the layers `i, i+1, …, i+rem-1`;
`L` is `bits_layer_num`. -/
def updateLoop (L way : Nat) : (rem i pos : Nat) → Bits → Bits
  | 0, _, _, bits => bits
  | rem + 1, i, pos, bits =>
    let b := if way &&& (1 <<< (L - i - 1)) ≠ 0 then false else true
    let bits := setBit bits i pos b
    updateLoop L way rem (i + 1) (pos * 2 + (if bits i pos then 0 else 1)) bits

/-- `PLRU.update` (`plru.py` 14-18). -/
def update (L : Nat) (bits : Bits) (way : Nat) : Bits := updateLoop L way L 0 0 bits

/-- The loop of `PLRU.get` (`plru.py` 20-24). -/
def getLoop : (rem i pos : Nat) → Bits → Nat
  | 0, _, pos, _ => pos
  | rem + 1, i, pos, bits => getLoop rem (i + 1) (pos * 2 + (bits i pos).toNat) bits

/-- `PLRU.get` (`plru.py` 20-24). -/
def get (L : Nat) (bits : Bits) : Nat := getLoop L 0 0 bits

/-- State after a history of `update` calls, oldest first. -/
def runUpdates (L : Nat) (bits : Bits) (ways : List Nat) : Bits := ways.foldl (update L) bits

/-- One replacement: `w = get(); update(w)`. -/
def sweepState (L : Nat) (bits : Bits) : Nat → Bits
  | 0 => bits
  | k + 1 => update L (sweepState L bits k) (get L (sweepState L bits k))

/-- The way returned by the `k`-th replacement of a sweep started in `bits`. -/
def victim (L : Nat) (bits : Bits) (k : Nat) : Nat := get L (sweepState L bits k)

end Toffee.PLRU
