/-!
Names of fields in camel case, `extra/cereal/struct.hpp`.

Characters are those of ASCII, in the "C" locale: for others `std::isdigit` and its companions are not defined
(their argument is a negative `char`) or depend on the locale.
-/

namespace Verif.Extra.Camel

/-- `std::isdigit`. -/
def isDigit (c : Char) : Bool := '0' ≤ c && c ≤ '9'

/-- `std::isupper`. -/
def isUpper (c : Char) : Bool := 'A' ≤ c && c ≤ 'Z'

/-- `std::islower`. -/
def isLower (c : Char) : Bool := 'a' ≤ c && c ≤ 'z'

/-- `std::isalpha`. -/
def isAlpha (c : Char) : Bool := isUpper c || isLower c

/-- `std::toupper`. -/
def toUpper (c : Char) : Char := if isLower c then Char.ofNat (c.toNat - 32) else c

/-- `std::tolower`. -/
def toLower (c : Char) : Char := if isUpper c then Char.ofNat (c.toNat + 32) else c

/-- The loop of `to_camel_case`, `extra/cereal/struct.hpp:35-47`, from index `in` with `n` characters to go.  It
writes to the buffer it reads from. -/
def loop : Nat → List Char → Nat → Nat → Bool → List Char × Nat
  | 0, str, _, out, _ => (str, out)
  | n + 1, str, i, out, newWord =>
    match str[i]? with
    | none => (str, out)
    | some c =>
      if isDigit c then loop n (str.set out c) (i + 1) (out + 1) newWord
      else if !isAlpha c then loop n str (i + 1) out true
      else if newWord then loop n (str.set out (toUpper c)) (i + 1) (out + 1) false
      else loop n (str.set out (toLower c)) (i + 1) (out + 1) newWord

/-- `to_camel_case`, `extra/cereal/struct.hpp:29-50`. -/
def toCamelCase (str : List Char) : List Char :=
  let (s, out) := loop str.length str 0 0 false
  s.take out

end Verif.Extra.Camel
