import Verif.Model.Base

/-! # Version strings -/

namespace Larch
namespace Spec

/-- The decimal digit of a number below ten. -/
def digitChar : Nat → Char
  | 0 => '0' | 1 => '1' | 2 => '2' | 3 => '3' | 4 => '4' | 5 => '5' | 6 => '6' | 7 => '7' | 8 => '8' | _ => '9'

/-- A number written in decimal. -/
def decimal (n : Nat) : List Char :=
  if n < 10 then [digitChar n] else decimal (n / 10) ++ [digitChar (n % 10)]
termination_by n
decreasing_by omega

/-- The version string `major.minor`. -/
def version (major minor : Nat) : List Char := decimal major ++ '.' :: decimal minor

end Spec
end Larch
