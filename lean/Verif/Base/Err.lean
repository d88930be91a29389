/-!
# Exceptions as values

One constructor per Python exception class that the modelled code raises and that a caller can
tell apart (`src/keri/kering.py` for the project's own classes, builtins otherwise).
-/

namespace Verif

inductive Err where
  -- Python builtins
  | valueError | keyError | typeError | attributeError | indexError | overflowError | binasciiError
  -- kering.py material errors
  | emptyMaterial | rawMaterial | conversion | shortage | unexpectedCode | unexpectedCountCode
  | unexpectedOpCode | unknownCode | invalidCode | invalidCodeSize | invalidVarIndex | invalidVarRawSize
  | invalidSoft | softMaterial
  -- kering.py validation errors
  | validation | invalidValue
  -- Python builtin raised by `Fraction("1/0")`
  | zeroDivision
  -- kering.py CESR table version
  | invalidVersion
  -- kering.py stream errors
  | coldStart | sizedGroup | topLevelStream | versionError | protocolError | kindError | deserialize
  -- Python builtin
  | recursion
  -- kering.py field map errors
  | serialize
  -- Python builtin raised by a reference to an unbound local name
  | unboundLocal
  deriving DecidableEq, Repr

instance {ε α : Type} [DecidableEq ε] [DecidableEq α] : DecidableEq (Except ε α)
  | .ok a, .ok b => if h : a = b then isTrue (by rw [h]) else isFalse (by simpa using h)
  | .error a, .error b => if h : a = b then isTrue (by rw [h]) else isFalse (by simpa using h)
  | .ok _, .error _ => isFalse (by simp)
  | .error _, .ok _ => isFalse (by simp)

end Verif
