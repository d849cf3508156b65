/-
The integers of Go.
-/
namespace Verif

/-- What `strconv.Atoi` returns for a number that `int` has no room for (construct.go:68, reducer/reducer.go:140, 159, 171): the nearest
one. `int` has 64 bits here. -/
def clampInt (i : Int) : Int := max (-(2 ^ 63)) (min (2 ^ 63 - 1) i)

end Verif
