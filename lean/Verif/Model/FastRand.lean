/-!
# Model of the random numbers (src/candy/utils/FastRand.h)
-/

namespace Candy

/-- `fastNextRand`, FastRand.h:18-24. -/
def fastNextRand (state : BitVec 64) : BitVec 64 :=
  let state := state ^^^ (state >>> 12)
  let state := state ^^^ (state <<< 25)
  let state := state ^^^ (state >>> 27)
  state * 2685821657736338717#64

end Candy
