import Verif.Cxx

/-! # Bit tricks used throughout the library -/

namespace Bits

/-- `i & -i` for a positive `int i` (e.g. fenwick_tree.hpp:20): the lowest set bit.  Written as `i - (i & (i - 1))` on
naturals; `Bits.lowbit_eq_land` shows it is the two's complement expression `i & -i`. -/
def lowbit (i : Nat) : Nat := i - (i &&& (i - 1))

end Bits
