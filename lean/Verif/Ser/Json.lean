import Verif.Mad.Model

/-!
# Model of `json.dumps(sad, separators=(",", ":"), ensure_ascii=False)`

The serialization of the kind JSON in src/keri/core/serdering.py:1640-1642 and mapping.py:641-642.  The characters of a text stand for the bytes of
its UTF-8 encoding, and `.encode()` is part of the model: bytes above 127 are left as they are.  A number is held as it is printed.
-/

namespace Verif.Ser

open Verif.Mad

/-- A hexadecimal digit in lower case. -/
def hexDigit (n : Nat) : Char := if n < 10 then Char.ofNat (48 + n) else Char.ofNat (87 + n)

/-- `json.encoder.py_encode_basestring`, one character: quotes, backslashes and control characters are escaped. -/
def esc (c : Char) : List Char :=
  if c = '"' then ['\\', '"']
  else if c = '\\' then ['\\', '\\']
  else if c.toNat = 10 then ['\\', 'n']
  else if c.toNat = 13 then ['\\', 'r']
  else if c.toNat = 9 then ['\\', 't']
  else if c.toNat = 12 then ['\\', 'f']
  else if c.toNat = 8 then ['\\', 'b']
  else if c.toNat < 32 then ['\\', 'u', '0', '0', hexDigit (c.toNat / 16), hexDigit (c.toNat % 16)]
  else [c]

/-- The characters of a text and the closing quote. -/
def escText : List Char → List Char
  | [] => ['"']
  | c :: t => esc c ++ escText t

/-- A text. -/
def jsonText (t : List Char) : List Char := '"' :: escText t

mutual
/-- A value. -/
def jsonV : Val → List Char
  | .null => ['n', 'u', 'l', 'l']
  | .bool true => ['t', 'r', 'u', 'e']
  | .bool false => ['f', 'a', 'l', 's', 'e']
  | .num dns => dns
  | .text t => jsonText t
  | .list vs => '[' :: jsonL true vs
  | .map fs => '{' :: jsonM true fs

/-- The items of a list and the closing bracket; the first one has no comma before it. -/
def jsonL (first : Bool) : List Val → List Char
  | [] => [']']
  | v :: vs => (if first then [] else [',']) ++ (jsonV v ++ jsonL false vs)

/-- The items of a map and the closing brace. -/
def jsonM (first : Bool) : List (List Char × Val) → List Char
  | [] => ['}']
  | (l, v) :: fs => (if first then [] else [',']) ++ (jsonText l ++ ':' :: (jsonV v ++ jsonM false fs))
end

/-- `json.dumps(sad, separators=(",", ":"), ensure_ascii=False).encode()` -/
def json (sad : Flds) : List Char := jsonV (.map sad)

end Verif.Ser
