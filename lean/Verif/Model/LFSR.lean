/-!
Model of `toffee/utils/lfsr_64.py`.
-/

namespace Toffee.LFSR

/-- `LFSR_64._state` as a natural number (`toffee/utils/lfsr_64.py` 2-3, 12-14).  Python integers
are unbounded, so no width is built into the type. -/
structure LFSR where
  state : Nat
deriving DecidableEq, Repr

/-- `LFSR_64.__init__` (`lfsr_64.py` 2-3): `seed & ((1 << 64) - 1)`.  For a Python integer (also a
negative one) masking with `2^64-1` is the residue modulo `2^64`. -/
def init (seed : Int) : LFSR := ⟨(seed % 2 ^ 64).toNat⟩

/-- The local helper `get_bit` (`lfsr_64.py` 6-7): `(self._state >> x) & 1`. -/
def getBit (l : LFSR) (x : Nat) : Nat := (l.state >>> x) &&& 1

/-- `LFSR_64.step` (`lfsr_64.py` 5-10). -/
def step (l : LFSR) : LFSR :=
  let newBit := getBit l 0 ^^^ getBit l 1 ^^^ getBit l 3 ^^^ getBit l 4
  ⟨(l.state >>> 1) ||| (newBit <<< 63)⟩

/-- The property `LFSR_64.rand` (`lfsr_64.py` 12-14). -/
def rand (l : LFSR) : Nat := l.state

/-- `rand` after construction with `seed` and `n` calls of `step`. -/
def randAfter (seed : Int) : Nat → LFSR
  | 0 => init seed
  | n + 1 => step (randAfter seed n)

end Toffee.LFSR
