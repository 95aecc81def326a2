import Verif.Bytes

/-!
# I-Regexp (specification)

RFC 9485 section 5.3 (and 5.4): for engines whose dot matches line ends in another way, replace the unescaped dots outside character
classes by `[^\n\r]`.
-/

namespace Verif.Rfc9485

/-- A piece of the inside of a character class: escaped characters, and others except `]` and the backslash. -/
inductive Class : Bytes → Prop
  | nil : Class []
  | esc {b c} : Class c → Class (c%'\\' :: b :: c)
  | char {b c} : b ≠ c%'\\' → b ≠ c%']' → Class c → Class (b :: c)

/-- `Dots p q`: `q` is `p` with the unescaped dots outside of character classes replaced. -/
inductive Dots : Bytes → Bytes → Prop
  | nil : Dots [] []
  | dot {p q} : Dots p q → Dots (c%'.' :: p) (b%"[^\\n\\r]" ++ q)
  | esc {b p q} : Dots p q → Dots (c%'\\' :: b :: p) (c%'\\' :: b :: q)
  | cls {c p q} : Class c → Dots p q → Dots (c%'[' :: (c ++ c%']' :: p)) (c%'[' :: (c ++ c%']' :: q))
  | char {b p q} : b ≠ c%'.' → b ≠ c%'\\' → b ≠ c%'[' → Dots p q → Dots (b :: p) (b :: q)
  | lastEsc : Dots [c%'\\'] [c%'\\']
  | openCls {c} : Class c → Dots (c%'[' :: c) (c%'[' :: c)
  | openEsc {c} : Class c → Dots (c%'[' :: (c ++ [c%'\\'])) (c%'[' :: (c ++ [c%'\\']))

end Verif.Rfc9485
