/-!
  Model of the key comparison members of class BwTree (/repo/src/bwtree.h 936-984), parameterised by the user's
  `key_cmp_obj` and `key_eq_obj`.
-/

namespace BwTree.KeyCmp

variable {K : Type} (lt eq : K → K → Bool)

/-- `KeyCmpLess` 936. -/
def less (a b : K) : Bool := lt a b
/-- `KeyCmpEqual` 945. -/
def equal (a b : K) : Bool := eq a b
/-- `KeyCmpGreaterEqual` 954. -/
def greaterEqual (a b : K) : Bool := !less lt a b
/-- `KeyCmpGreater` 964. -/
def greater (a b : K) : Bool := less lt b a
/-- `KeyCmpLessEqual` 971. -/
def lessEqual (a b : K) : Bool := !greater lt a b

end BwTree.KeyCmp
