import Verif.Model.Basic

/-!
# JSON texts (RFC 8259), independently of any parser

What a struct with one string field may look like as JSON: an object in which the field occurs once,
with a string, among any other fields; or an array with the string.
-/

namespace Pasta.Spec.Json

/-- White space -/
def Ws (t : Bytes) : Prop := ∀ c ∈ t, c = 0x20 ∨ c = 0x0a ∨ c = 0x09 ∨ c = 0x0d

/-- The bytes of a string. -/
def utf8 (s : String) : Bytes := s.toByteArray.data.toList

/-- The digits `0` to `9`. -/
def Digit (c : UInt8) : Prop := 0x30 ≤ c ∧ c ≤ 0x39

/-- One hexadecimal digit and its value. -/
def HexDigit (c : UInt8) (n : Nat) : Prop :=
  (Digit c ∧ n = c.toNat - 0x30) ∨ (0x61 ≤ c ∧ c ≤ 0x66 ∧ n = c.toNat - 0x61 + 10) ∨
    (0x41 ≤ c ∧ c ≤ 0x46 ∧ n = c.toNat - 0x41 + 10)

/-- Four hexadecimal digits and their value. -/
def Hex4 (t : Bytes) (n : Nat) : Prop :=
  ∃ a b c d x y z w, t = [a, b, c, d] ∧ HexDigit a x ∧ HexDigit b y ∧ HexDigit c z ∧ HexDigit d w ∧
    n = x * 4096 + y * 256 + z * 16 + w

/-- The two-character escapes: quote, backslash, slash, `b`, `f`, `n`, `r`, `t`. -/
def escapes : List (UInt8 × UInt8) :=
  [(0x22, 0x22), (0x5c, 0x5c), (0x2f, 0x2f), (0x62, 0x08), (0x66, 0x0c), (0x6e, 0x0a), (0x72, 0x0d),
    (0x74, 0x09)]

/-- The text between the quotes of a string, and the bytes it stands for. -/
inductive Chars : Bytes → Bytes → Prop
  | nil : Chars [] []
  | plain {c t v} : 0x20 ≤ c → c ≠ 0x22 → c ≠ 0x5c → Chars t v → Chars (c :: t) (c :: v)
  | escape {c x t v} : (c, x) ∈ escapes → Chars t v → Chars (0x5c :: c :: t) (x :: v)
  | unicode {h n t v} : Hex4 h n → ¬ (0xd800 ≤ n ∧ n ≤ 0xdfff) → Chars t v →
      Chars (0x5c :: 0x75 :: (h ++ t)) (String.utf8EncodeChar (Char.ofNat n) ++ v)
  | pair {h l n m t v} : Hex4 h n → 0xd800 ≤ n → n ≤ 0xdbff → Hex4 l m → 0xdc00 ≤ m → m ≤ 0xdfff →
      Chars t v → Chars (0x5c :: 0x75 :: (h ++ 0x5c :: 0x75 :: (l ++ t)))
        (String.utf8EncodeChar (Char.ofNat (0x10000 + (n - 0xd800) * 0x400 + (m - 0xdc00))) ++ v)

/-- A string literal for `s`. -/
def StrLit (t : Bytes) (s : String) : Prop := ∃ b, t = 0x22 :: (b ++ [0x22]) ∧ Chars b (utf8 s)

/-- The text between the quotes of any string, whatever it stands for. -/
inductive AnyChars : Bytes → Prop
  | nil : AnyChars []
  | plain {c t} : 0x20 ≤ c → c ≠ 0x22 → c ≠ 0x5c → AnyChars t → AnyChars (c :: t)
  | escape {c x t} : (c, x) ∈ escapes → AnyChars t → AnyChars (0x5c :: c :: t)
  | unicode {h n t} : Hex4 h n → AnyChars t → AnyChars (0x5c :: 0x75 :: (h ++ t))

/-- At least one digit. -/
def Digits (t : Bytes) : Prop := t ≠ [] ∧ ∀ c ∈ t, Digit c

/-- No superfluous leading zero. -/
def IntPart (t : Bytes) : Prop := Digits t ∧ (t.head? = some 0x30 → t = [0x30])

def Fraction (t : Bytes) : Prop := t = [] ∨ ∃ d, Digits d ∧ t = 0x2e :: d

def Exponent (t : Bytes) : Prop :=
  t = [] ∨ ∃ e sign d, (e = 0x65 ∨ e = 0x45) ∧ (sign = [] ∨ sign = [0x2b] ∨ sign = [0x2d]) ∧ Digits d ∧
    t = e :: (sign ++ d)

def Number (t : Bytes) : Prop :=
  ∃ sign i f e, (sign = [] ∨ sign = [0x2d]) ∧ IntPart i ∧ Fraction f ∧ Exponent e ∧
    t = sign ++ i ++ f ++ e

/-- Values, lists of elements, lists of members. -/
inductive Part where | value | elements | members

/-- The texts of each. -/
inductive Text : Part → Bytes → Prop
  | null : Text .value (asc "null")
  | true : Text .value (asc "true")
  | false : Text .value (asc "false")
  | number {t} : Number t → Text .value t
  | string {t} : AnyChars t → Text .value (0x22 :: (t ++ [0x22]))
  | emptyArray {w} : Ws w → Text .value (0x5b :: (w ++ [0x5d]))
  | array {t} : Text .elements t → Text .value (0x5b :: (t ++ [0x5d]))
  | emptyObject {w} : Ws w → Text .value (0x7b :: (w ++ [0x7d]))
  | object {t} : Text .members t → Text .value (0x7b :: (t ++ [0x7d]))
  | oneElement {a t b} : Ws a → Text .value t → Ws b → Text .elements (a ++ t ++ b)
  | moreElements {a t b r} : Ws a → Text .value t → Ws b → Text .elements r →
      Text .elements (a ++ t ++ b ++ 0x2c :: r)
  | oneMember {a k b c t d} : Ws a → AnyChars k → Ws b → Ws c → Text .value t → Ws d →
      Text .members (a ++ 0x22 :: (k ++ [0x22]) ++ b ++ 0x3a :: (c ++ t ++ d))
  | moreMembers {a k b c t d r} : Ws a → AnyChars k → Ws b → Ws c → Text .value t → Ws d →
      Text .members r →
      Text .members (a ++ 0x22 :: (k ++ [0x22]) ++ b ++ 0x3a :: (c ++ t ++ d ++ 0x2c :: r))

/-- The members of an object with the meaning of their names and the texts of their values. -/
inductive Fields : List (String × Bytes) → Bytes → Prop
  | one {a k key b c t d} : Ws a → StrLit k key → Ws b → Ws c → Text .value t → Ws d →
      Fields [(key, t)] (a ++ k ++ b ++ 0x3a :: (c ++ t ++ d))
  | more {a k key b c t d fs r} : Ws a → StrLit k key → Ws b → Ws c → Text .value t → Ws d →
      Fields fs r → Fields ((key, t) :: fs) (a ++ k ++ b ++ 0x3a :: (c ++ t ++ d ++ 0x2c :: r))

/-- The text is an object with one field of the given name, whose value is the string `s`, and any
other fields; or an array with the string `s`. -/
def Struct (name s : String) (text : Bytes) : Prop :=
  (∃ a b body fs t, Ws a ∧ Ws b ∧ text = a ++ 0x7b :: (body ++ 0x7d :: b) ∧ Fields fs body ∧
    fs.filter (fun f => f.1 = name) = [(name, t)] ∧ StrLit t s) ∨
  ∃ a b c d t, Ws a ∧ Ws b ∧ Ws c ∧ Ws d ∧ StrLit t s ∧ text = a ++ 0x5b :: (b ++ t ++ c ++ 0x5d :: d)

/-- String literals for the given strings, separated by commas. -/
inductive Strings : List String → Bytes → Prop
  | one {a t s b} : Ws a → StrLit t s → Ws b → Strings [s] (a ++ t ++ b)
  | more {a t s b ss r} : Ws a → StrLit t s → Ws b → Strings ss r →
      Strings (s :: ss) (a ++ t ++ b ++ 0x2c :: r)

/-- The text is an object in which each of the given fields (names and strings) occurs once, with its
string, in any order and among any other fields; or an array with the strings, in order. -/
def Record (fields : List (String × String)) (text : Bytes) : Prop :=
  (∃ a b body fs, Ws a ∧ Ws b ∧ text = a ++ 0x7b :: (body ++ 0x7d :: b) ∧ Fields fs body ∧
    ∀ f ∈ fields, ∃ t, fs.filter (fun g => g.1 = f.1) = [(f.1, t)] ∧ StrLit t f.2) ∨
  ∃ a b body, Ws a ∧ Ws b ∧ text = a ++ 0x5b :: (body ++ 0x5d :: b) ∧
    Strings (fields.map Prod.snd) body

end Pasta.Spec.Json
