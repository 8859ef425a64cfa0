/-!
# Unicode encodings, from the Unicode Standard (chapter 3.9, tables 3-5 and 3-6)
-/

namespace Verif.Utf.Spec

/-- Unicode scalar values. -/
def Scalar (c : Nat) : Prop := c < 0xd800 ∨ (0xe000 ≤ c ∧ c < 0x110000)

instance (c : Nat) : Decidable (Scalar c) := by unfold Scalar; infer_instance

/-- UTF-8 encoding form (table 3-6). -/
def utf8 (c : Nat) : List Nat :=
  if c < 0x80 then [c]
  else if c < 0x800 then [0xc0 + c / 64, 0x80 + c % 64]
  else if c < 0x10000 then [0xe0 + c / 4096, 0x80 + c / 64 % 64, 0x80 + c % 64]
  else [0xf0 + c / 262144, 0x80 + c / 4096 % 64, 0x80 + c / 64 % 64, 0x80 + c % 64]

/-- UTF-16 encoding form (table 3-5). -/
def utf16 (c : Nat) : List Nat :=
  if c < 0x10000 then [c]
  else [0xd800 + (c - 0x10000) / 0x400, 0xdc00 + (c - 0x10000) % 0x400]

def encode8 (cs : List Nat) : List Nat := cs.flatMap utf8
def encode16 (cs : List Nat) : List Nat := cs.flatMap utf16

/-- The code points the UTF-8 iterators drop: the last two of each plane, and U+FDD0..U+FDDF.  (Unicode's
noncharacters also include U+FDE0..U+FDEF.) -/
def Dropped (c : Nat) : Prop := 0xfffe ≤ c % 0x10000 ∨ (0xfdd0 ≤ c ∧ c ≤ 0xfddf)

instance (c : Nat) : Decidable (Dropped c) := by unfold Dropped; infer_instance

end Verif.Utf.Spec
