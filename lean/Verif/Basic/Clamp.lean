/- Shared specification vocabulary: clamping an integer coordinate into `0..n-1`. -/
namespace Verif

/-- The coordinate of `0..n-1` nearest to `i` (for `n > 0`). -/
def clampTo (n : Nat) (i : Int) : Nat := (max 0 (min i ((n : Int) - 1))).toNat

theorem clampTo_lt {n : Nat} (h : 0 < n) (i : Int) : clampTo n i < n := by
  unfold clampTo; omega

theorem clampTo_of_mem {n : Nat} {i : Nat} (h : i < n) : clampTo n (i : Int) = i := by
  unfold clampTo; omega

end Verif
