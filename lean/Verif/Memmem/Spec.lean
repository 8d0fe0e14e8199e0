import Verif.Base
/-
What searching means.
-/
namespace Muon.Memmem.Spec
open Muon

/-- The needle is in the haystack, with `i` bytes before it. -/
def Occurs (h n : Bytes) (i : Nat) : Prop := ∃ a b, h = a ++ n ++ b ∧ a.length = i

end Muon.Memmem.Spec
