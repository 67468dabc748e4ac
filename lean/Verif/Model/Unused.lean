import Verif.Model.Alloc
/-!
# `Allocator.unused` (`allocator.go:80-83`)
-/
set_option autoImplicit false
namespace Radix

/-- allocator.go:81-83 `unused`, of allocator `a`; `a.blockSize` is the constant `blockSize` (allocator.go:68).  The difference of two `uint64` is
taken in the integers: `C68_bounds_partial` shows that it is not negative. -/
def St.unused (st : St) (a : Nat) : Int := (blockSize : Int) - (st.allocs a).nextFree

end Radix
