import Verif.Codec.Matter

/-!
# Model of the text and number primitives built on `Matter`

`Bexter` (src/keri/core/coring.py 2685-2885), `Number` (1619-1885), `Decimer` (1888-2010), `Dater` (2013-2132).
-/

namespace Verif.Matter

open Verif.B64

/-- coring.py:2857 / 1973-1974: wad size for a text of `n` characters. -/
def wadSize (n : Nat) : Nat := (4 - n % 4) % 4

/-- coring.py:2866 / 1975: lead size for a text of `n` characters. -/
def leadSize (n : Nat) : Nat := (3 - n % 4) % 3

/-- coring.py:2865-2867 and 1976-1977: prepad with `A`, decode, drop the lead bytes. -/
def rawOfText (text : List Char) : Except Err (List Nat) :=
  match decodeB64 (List.replicate (wadSize text.length) 'A' ++ text) with
  | .error e => .error e
  | .ok b => .ok (b.drop (leadSize text.length))

/-- coring.py:2770-2778 and 1987-1995: encode with lead, strip the wad. -/
def textOfRaw (ls : Nat) (raw : List Nat) : List Char :=
  let t := encodeB64 (zeros ls ++ raw)
  match t with
  | c :: _ => if ls = 0 then (if c = 'A' then t.drop 1 else t) else t.drop ((ls + 1) % 4)
  | [] => t.drop ((ls + 1) % 4)

/-- coring.py:2859-2863: escaping of a leading `A` that would be taken for wad, and of a leading escape character. -/
def escape (bext : List Char) : List Char :=
  match bext with
  | c :: _ =>
    if (c = 'A' ∧ (wadSize bext.length = 0 ∨ wadSize bext.length = 1)) ∨ c = '-' then '-' :: bext else bext
  | [] => bext

/-- coring.py:2780-2782: strip one escape character. -/
def unescape (t : List Char) : List Char :=
  match t with
  | c :: rest => if c = '-' then rest else t
  | [] => []

/-- coring.py:2823-2869 `Bexter._rawify`. -/
def bextRawify (bext : List Char) (escapive : Bool) : Except Err (List Nat) :=
  rawOfText (if escapive then escape bext else bext)

/-- coring.py:388-403 `BexDex`. -/
def bexDex : List (List Char) :=
  [['4', 'A'], ['5', 'A'], ['6', 'A'], ['7', 'A', 'A', 'A'], ['8', 'A', 'A', 'A'], ['9', 'A', 'A', 'A']]

/-- coring.py:2805-2820 `Bexter(bext=…, escapive=…)` with the default code. -/
def mkBexter (bext : List Char) (escapive : Bool) : Except Err Mat :=
  if !reb64 bext then .error .valueError else
  match bextRawify bext escapive with
  | .error e => .error e
  | .ok raw =>
    match make ['4', 'A'] [] raw none with
    | .error e => .error e
    | .ok m => if m.code ∈ bexDex then .ok m else .error .validation

/-- coring.py:2816-2820 `Bexter(qb64=…)`. -/
def bexterOfText (qb64 : List Char) : Except Err Mat :=
  match exfil qb64 with
  | .error e => .error e
  | .ok m => if m.code ∈ bexDex then .ok m else .error .validation

/-- coring.py:2872-2876 `Bexter.bext` (`_derawify`, 2738-2784). -/
def bextOf (m : Mat) (escapive : Bool) : Except Err (List Char) :=
  match sizes? m.code with
  | none => .error .keyError
  | some sz =>
    let t := textOfRaw sz.ls m.raw
    .ok (if escapive then unescape t else t)

/-- coring.py:496-515 `NumDex`. -/
def numDex : List (List Char) :=
  [['M'], ['0', 'H'], ['R'], ['N'], ['S'], ['T'], ['0', 'A'], ['U']]

/-- coring.py:1729-1752, code chosen when none is given. -/
def numCode (n : Nat) : Except Err (List Char) :=
  if n ≤ 256 ^ 2 - 1 then .ok ['M']
  else if n ≤ 256 ^ 5 - 1 then .ok ['R']
  else if n ≤ 256 ^ 8 - 1 then .ok ['N']
  else if n ≤ 256 ^ 11 - 1 then .ok ['S']
  else if n ≤ 256 ^ 14 - 1 then .ok ['T']
  else if n ≤ 256 ^ 17 - 1 then .ok ['U']
  else .error .invalidValue

/-- coring.py:1754-1768, `num.to_bytes(Matter._rawSize(code), 'big')` and construction. Numbers are non-negative here
(negatives are refused at 1723). -/
def numWithCode (n : Nat) (code : List Char) : Except Err Mat :=
  match sizes? code with
  | none => .error .invalidValue
  | some sz =>
    match sz.fs with
    | none => .error .invalidValue
    | some fs =>
      if n < 256 ^ rawSize sz fs then
        match make code [] (toDigits 256 (rawSize sz fs) n) none with
        | .error e => .error e
        | .ok m => if m.code ∈ numDex then .ok m else .error .validation
      else .error .invalidValue

/-- coring.py:1704-1768 `Number(num=…, code=…)`. -/
def mkNumber (n : Nat) (code : Option (List Char)) : Except Err Mat :=
  match code with
  | some c => numWithCode n c
  | none =>
    match numCode n with
    | .error e => .error e
    | .ok c => numWithCode n c

/-- coring.py:1764-1768 `Number(qb64=…)`. -/
def numberOfText (qb64 : List Char) : Except Err Mat :=
  match exfil qb64 with
  | .error e => .error e
  | .ok m => if m.code ∈ numDex then .ok m else .error .validation

/-- coring.py:1807-1812 `Number.num`. -/
def numOf (m : Mat) : Nat := ofDigits 256 m.raw

/-- coring.py:1922-1923 `Decimer.ToB64`, `FromB64`. -/
def decTo (c : Char) : Char := if c = '.' then 'p' else c
def decFrom (c : Char) : Char := if c = 'p' then '.' else c

/-- coring.py:426-441 `DecDex`. -/
def decDex : List (List Char) :=
  [['4', 'H'], ['5', 'H'], ['6', 'H'], ['7', 'A', 'A', 'H'], ['8', 'A', 'A', 'H'], ['9', 'A', 'A', 'H']]

/-- coring.py:1938-1978 `Decimer(dns=…)`, from the canonical text on (`dns = f"{decimal}"`, 1951-1956; Python's
int/float printing is not modelled, `dns` is any text it may print). -/
def mkDecimer (dns : List Char) : Except Err Mat :=
  match rawOfText (dns.map decTo) with
  | .error e => .error e
  | .ok raw =>
    match make ['4', 'H'] [] raw none with
    | .error e => .error e
    | .ok m => if m.code ∈ decDex then .ok m else .error .validation

/-- coring.py:1981-1997 `Decimer.dns`. -/
def dnsOf (m : Mat) : Except Err (List Char) :=
  match sizes? m.code with
  | none => .error .keyError
  | some sz => .ok ((textOfRaw sz.ls m.raw).map decFrom)

/-- coring.py:2082-2083 `Dater.ToB64`, `FromB64`. -/
def dtTo (c : Char) : Char := if c = ':' then 'c' else if c = '.' then 'd' else if c = '+' then 'p' else c
def dtFrom (c : Char) : Char := if c = 'c' then ':' else if c = 'd' then '.' else if c = 'p' then '+' else c

/-- `MtrDex.DateTime`. -/
def dtCode : List Char := ['1', 'A', 'A', 'G']

/-- coring.py:2097-2110 `Dater(dts=…)`. -/
def mkDater (dts : List Char) : Except Err Mat :=
  match exfil (dtCode ++ dts.map dtTo) with
  | .error e => .error e
  | .ok m => if m.code ≠ dtCode then .error .validation else .ok m

/-- coring.py:2112-2117 `Dater.dts`. -/
def dtsOf (m : Mat) : Except Err (List Char) :=
  match infil m, sizes? m.code with
  | .ok t, some sz => .ok ((t.drop sz.hs).map dtFrom)
  | .error e, _ => .error e
  | _, none => .error .keyError

end Verif.Matter
