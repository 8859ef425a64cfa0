import Verif.Auto.Spec
import Verif.Utf.Spec

/-!
# Specification: what ranges must match

The encodings are those of `Verif.Utf.Spec` (Unicode Standard, tables 3-5 and 3-6).
-/

namespace Verif.Enc

open Verif.Auto Verif.Utf.Spec

/-- The words that are the encoding of one code point `c` with `b ≤ c < e`. -/
def EncodedIn (enc : Nat → List Nat) (b e : Nat) : Lang := fun w => ∃ c, b ≤ c ∧ c < e ∧ w = enc c

/-- The same for Unicode scalar values. -/
def ScalarIn (enc : Nat → List Nat) (b e : Nat) : Lang := fun w => ∃ c, b ≤ c ∧ c < e ∧ Scalar c ∧ w = enc c

end Verif.Enc
