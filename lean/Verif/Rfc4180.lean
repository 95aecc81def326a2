import Verif.Bytes

/-!
# CSV

The grammar of RFC 4180, and the grammar of the texts that Go's library `encoding/csv` reads.
-/

namespace Verif.Rfc4180

/-- What is between the quotes of a quoted field, and what it stands for: each quote is doubled. -/
inductive Quoted : Bytes → Bytes → Prop
  | nil : Quoted [] []
  | char {b s v} : b ≠ c%'"' → Quoted s v → Quoted (b :: s) (b :: v)
  | quote {s v} : Quoted s v → Quoted (c%'"' :: c%'"' :: s) (c%'"' :: v)

/-! ## RFC 4180 -/

/-- `field` of RFC 4180, section 2.  As usual, all bytes are allowed in fields without quotes, except for quotes, commas and line breaks. -/
inductive Field : Bytes → Bytes → Prop
  | plain {s} : (∀ b ∈ s, b ≠ c%'"' ∧ b ≠ c%',' ∧ b ≠ c%'\r' ∧ b ≠ c%'\n') → Field s s
  | quoted {s v} : Quoted s v → Field (c%'"' :: (s ++ [c%'"'])) v

/-- `record`: fields separated by commas. -/
inductive Record : Bytes → List Bytes → Prop
  | one {s v} : Field s v → Record s [v]
  | cons {s v t vs} : Field s v → Record t vs → Record (s ++ c%',' :: t) (v :: vs)

/-- The end of a line: CRLF, as in RFC 4180, or LF, as in most files. -/
inductive Eol : Bytes → Prop
  | crlf : Eol [c%'\r', c%'\n']
  | lf : Eol [c%'\n']

/-- `file`: the last record may have no line break. -/
inductive File : Bytes → List (List Bytes) → Prop
  | last {s r} : Record s r → File s [r]
  | lastEol {s r e} : Record s r → Eol e → File (s ++ e) [r]
  | cons {s r e t rs} : Record s r → Eol e → File t rs → File (s ++ (e ++ t)) (r :: rs)

/-! ## What Go reads -/

/-- Each CRLF becomes LF. -/
def crlf : Bytes → Bytes
  | [] => []
  | b :: s => if b = c%'\r' ∧ s.head? = some c%'\n' then crlf s else b :: crlf s

/-- A field: other than in RFC 4180, there may be carriage returns in fields without quotes. -/
inductive GoField : Bytes → Bytes → Prop
  | plain {s} : (∀ b ∈ s, b ≠ c%'"' ∧ b ≠ c%',' ∧ b ≠ c%'\n') → GoField s s
  | quoted {s v} : Quoted s v → GoField (c%'"' :: (s ++ [c%'"'])) v

inductive GoRecord : Bytes → List Bytes → Prop
  | one {s v} : GoField s v → GoRecord s [v]
  | cons {s v t vs} : GoField s v → GoRecord t vs → GoRecord (s ++ c%',' :: t) (v :: vs)

/-- The records of a text in which CRLF has become LF: empty lines do not count, and neither does a carriage return at the end of the text. -/
inductive GoRecords : Bytes → List (List Bytes) → Prop
  | nil : GoRecords [] []
  | cr : GoRecords [c%'\r'] []
  | blank {t rs} : GoRecords t rs → GoRecords (c%'\n' :: t) rs
  | record {s r t rs} : GoRecord s r → s ≠ [] → GoRecords t rs → GoRecords (s ++ c%'\n' :: t) (r :: rs)
  | last {s r} : GoRecord s r → s ≠ [] → s.getLast? ≠ some c%'\r' → GoRecords s [r]
  | lastCR {s r} : GoRecord s r → s ≠ [] → GoRecords (s ++ [c%'\r']) [r]

/-- The same for a part of a text that ends with a line break. -/
inductive GoLines : Bytes → List (List Bytes) → Prop
  | nil : GoLines [] []
  | blank {t rs} : GoLines t rs → GoLines (c%'\n' :: t) rs
  | record {s r t rs} : GoRecord s r → s ≠ [] → GoLines t rs → GoLines (s ++ c%'\n' :: t) (r :: rs)

end Verif.Rfc4180
