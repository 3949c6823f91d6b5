import Mathlib.Logic.Function.Iterate

/-! # Specification: sequence of random keys -/

namespace Cyjax

/-- Key number `k` of the sequence that starts in state `s` (see C13). -/
def seqKey {Key : Type*} (split : Key → Key × Key) (s : Key) (k : ℕ) : Key := (split ((fun k => (split k).2)^[k] s)).1

end Cyjax
