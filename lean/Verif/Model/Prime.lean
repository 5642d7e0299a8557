/-! Model of the prime functions in `utils.c`. -/

namespace Verif.Prime

/-- utils.c 726-732: the loop of `IsPrime`, from `i` on.  `i < sqrt(n) + 1` is written `(i - 1)² < n`:
for an `int` the two are the same also in floating point, as the square root is correctly rounded, is at
most `k` if `n ≤ k²` and differs from `k` by more than the rounding error otherwise. -/
def noDivisor (n i : Nat) : Bool :=
  if h : 0 < i ∧ (i - 1) * (i - 1) < n then
    if n % i = 0 then false else noDivisor n (i + 2)
  else true
termination_by n + 2 - i
decreasing_by
  have h1 : i - 1 ≤ (i - 1) * (i - 1) := Nat.le_mul_self _
  omega

/-- utils.c 707-735 `IsPrime`. -/
def isPrime (n : Int) : Bool :=
  if n < 2 then false
  else if n = 2 then true
  else if n % 2 = 0 then false
  else noDivisor n.toNat 3

/-- utils.h 9, 11 `ROUND_UP(val, base)`; C's division truncates. -/
def roundUp (v base : Int) : Int := (v + base - 1).tdiv base * base

/-- utils.c 746-755: the loop of `FindNextPrime`, with `fuel` numbers to try.  `none`: the fuel is used
up, or the number to try does not fit an `int` any more. -/
def nextLoop : Nat → Int → Option Int
  | 0, _ => none
  | fuel + 1, c =>
    if 2147483647 < c then none
    else if isPrime c then some c else nextLoop fuel (c + 2)

/-- utils.c 737-756 `FindNextPrime`. -/
def findNextPrime (fuel : Nat) (c : Int) : Option Int :=
  if isPrime c then some c else nextLoop fuel (roundUp c 2 + 1)

end Verif.Prime
