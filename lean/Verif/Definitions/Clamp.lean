import Mathlib.Data.Rat.Floor
import Mathlib.Algebra.Order.Floor.Ring
import Mathlib.Tactic.Linarith
import Mathlib.Tactic.NormNum
/-
Model and properties of the `Clamp` conversions of src/definitions.rs (C75).
-/
namespace Verif.Definitions

/-- Casting a float to an integer type truncates towards zero (`x as $to`); the saturation of the
cast never matters below because the value is already inside the range. -/
def truncQ (x : ℚ) : Int := if 0 ≤ x then ⌊x⌋ else ⌈x⌉

/-- `implement_clamp!` for integer sources (src/definitions.rs:89-103); the target type is the
interval `mn..=mx`. -/
def clampInt (mn mx : Int) (x : Int) : Int :=
  if x < mx then
    if x > mn then x else mn
  else mx

/-- `implement_clamp!` for float sources (src/definitions.rs:89-103), over exact rationals. -/
def clampQ (mn mx : Int) (x : ℚ) : Int :=
  if x < (mx : ℚ) then
    if x > (mn : ℚ) then truncQ x else mn
  else mx

/-- The integer types with a clamping conversion. -/
inductive IntTy
  | u8 | u16 | i16 | u32 | i32
  deriving DecidableEq

/-- Number of bits. -/
def IntTy.bits : IntTy → Nat
  | u8 => 8 | u16 => 16 | i16 => 16 | u32 => 32 | i32 => 32

/-- Whether the type is signed. -/
def IntTy.signed : IntTy → Bool
  | i16 => true | i32 => true | _ => false

/-- The conversions implemented from integers (src/definitions.rs:117-120, 124-131, 149-156): source
type, target type and the bounds given to the macro. -/
def intPairs : List (IntTy × IntTy × Int × Int) :=
  [(.i16, .u8, 0, 255), (.u16, .u8, 0, 255), (.i32, .u8, 0, 255), (.u32, .u8, 0, 255),
   (.i32, .u16, 0, 65535), (.i32, .i16, -32768, 32767)]

/-- The conversions implemented from floats (src/definitions.rs:121-122, 132-147). -/
def floatTargets : List (IntTy × Int × Int) :=
  [(.u8, 0, 255), (.u8, 0, 255), (.u16, 0, 65535), (.u16, 0, 65535)]

/-! ### Properties -/

theorem truncQ_int (n : Int) : truncQ (n : ℚ) = n := by unfold truncQ; split <;> simp

/-- C75: integer clamping: the number itself when representable, the nearest bound otherwise. -/
theorem C75_int (mn mx x : Int) (h : mn ≤ mx) :
    (mn ≤ x → x ≤ mx → clampInt mn mx x = x) ∧ (x < mn → clampInt mn mx x = mn) ∧
    (mx < x → clampInt mn mx x = mx) := by
  unfold clampInt
  refine ⟨fun h1 h2 => ?_, fun h1 => ?_, fun h1 => ?_⟩ <;> split <;> (try split) <;> omega

/-- C75: integer clamping is monotone, idempotent and lands in the target type. -/
theorem C75_int_mono (mn mx x y : Int) (h : mn ≤ mx) :
    (x ≤ y → clampInt mn mx x ≤ clampInt mn mx y) ∧
    clampInt mn mx (clampInt mn mx x) = clampInt mn mx x ∧
    mn ≤ clampInt mn mx x ∧ clampInt mn mx x ≤ mx := by
  unfold clampInt
  refine ⟨fun h1 => ?_, ?_, ?_, ?_⟩ <;> (split_ifs <;> omega)

/-- C75: float clamping: truncation towards zero when inside the range, the nearest bound
otherwise (the targets implemented have lower bound 0, where truncation is the floor). -/
theorem C75_float (mn mx : Int) (x : ℚ) (h : mn ≤ mx) :
    (∀ n : Int, x = n → mn ≤ n → n ≤ mx → clampQ mn mx x = n) ∧
    ((mn : ℚ) ≤ x → x ≤ mx → clampQ mn mx x = truncQ x) ∧
    (x < mn → clampQ mn mx x = mn) ∧ ((mx : ℚ) < x → clampQ mn mx x = mx) := by
  have h' : (mn : ℚ) ≤ mx := by exact_mod_cast h
  have key : (mn : ℚ) ≤ x → x ≤ mx → clampQ mn mx x = truncQ x := by
    intro h1 h2
    unfold clampQ
    split
    · split
      · rfl
      · have : x = mn := le_antisymm (by linarith) h1
        rw [this, truncQ_int]
    · have : x = mx := le_antisymm h2 (by linarith)
      rw [this, truncQ_int]
  refine ⟨?_, key, ?_, ?_⟩
  · rintro n rfl h1 h2
    rw [key (by exact_mod_cast h1) (by exact_mod_cast h2), truncQ_int]
  · intro h1
    unfold clampQ
    rw [if_pos (by linarith), if_neg (by linarith)]
  · intro h1
    unfold clampQ
    rw [if_neg (by linarith)]

/-- Truncation towards zero is monotone. -/
theorem truncQ_mono {x y : ℚ} (h : x ≤ y) : truncQ x ≤ truncQ y := by
  unfold truncQ
  split <;> split
  · exact Int.floor_mono h
  · linarith
  · have h1 : ⌈x⌉ ≤ 0 := Int.ceil_le.2 (by push_cast; linarith)
    have h2 : 0 ≤ ⌊y⌋ := Int.floor_nonneg.2 (by assumption)
    omega
  · exact Int.ceil_mono h

/-- C75: what truncation means: the integer between zero and the number nearest to it. -/
theorem C75_trunc (x : ℚ) :
    (0 ≤ x → 0 ≤ (truncQ x : ℚ) ∧ (truncQ x : ℚ) ≤ x ∧ x < truncQ x + 1) ∧
    (x ≤ 0 → (truncQ x : ℚ) ≤ 0 ∧ x ≤ truncQ x ∧ (truncQ x : ℚ) - 1 < x) := by
  constructor
  · intro h
    unfold truncQ
    rw [if_pos h]
    exact ⟨by exact_mod_cast Int.floor_nonneg.2 h, Int.floor_le x, Int.lt_floor_add_one x⟩
  · intro h
    have e : truncQ x = ⌈x⌉ := by
      unfold truncQ
      split
      · have : x = 0 := le_antisymm h (by assumption)
        rw [this]; simp
      · rfl
    rw [e]
    refine ⟨?_, Int.le_ceil x, ?_⟩
    · have : ⌈x⌉ ≤ 0 := Int.ceil_le.2 (by simpa using h)
      exact_mod_cast this
    · have := Int.ceil_lt_add_one x
      linarith

theorem clampQ_eq (mn mx : Int) (x : ℚ) (h : mn ≤ mx) :
    clampQ mn mx x = max mn (min (truncQ x) mx) := by
  have h' : (mn : ℚ) ≤ mx := by exact_mod_cast h
  obtain ⟨-, h1, h2, h3⟩ := C75_float mn mx x h
  by_cases hlo : x < mn
  · rw [h2 hlo]
    have := truncQ_mono hlo.le
    rw [truncQ_int] at this
    omega
  · by_cases hhi : (mx : ℚ) < x
    · rw [h3 hhi]
      have := truncQ_mono hhi.le
      rw [truncQ_int] at this
      omega
    · rw [h1 (by linarith) (by linarith)]
      have a := truncQ_mono (show (mn : ℚ) ≤ x by linarith)
      have b := truncQ_mono (show x ≤ (mx : ℚ) by linarith)
      rw [truncQ_int] at a b
      omega

/-- C75: float clamping is monotone, lands in the target type and leaves its own results fixed. -/
theorem C75_float_mono (mn mx : Int) (x y : ℚ) (h : mn ≤ mx) :
    (x ≤ y → clampQ mn mx x ≤ clampQ mn mx y) ∧
    clampQ mn mx (clampQ mn mx x : ℚ) = clampQ mn mx x ∧
    mn ≤ clampQ mn mx x ∧ clampQ mn mx x ≤ mx := by
  rw [clampQ_eq mn mx x h, clampQ_eq mn mx y h, clampQ_eq mn mx _ h, truncQ_int]
  refine ⟨fun hxy => ?_, by omega, by omega, by omega⟩
  have := truncQ_mono hxy
  omega

/-- C75: `x` is a value of the integer type. -/
def IntTy.Has (t : IntTy) (x : Int) : Prop :=
  if t.signed then -2 ^ (t.bits - 1) ≤ x ∧ x < 2 ^ (t.bits - 1) else 0 ≤ x ∧ x < 2 ^ t.bits

/-- C75: every implemented conversion from an integer type returns a value of the target type,
the number itself if the target type has it, and otherwise the value of the target type closest
to it; its bounds are values of the source type, so that the comparisons are meaningful. -/
theorem C75_pairs : ∀ q ∈ intPairs, ∀ x : Int, q.1.Has x →
    q.2.1.Has (clampInt q.2.2.1 q.2.2.2 x) ∧ (q.2.1.Has x → clampInt q.2.2.1 q.2.2.2 x = x) ∧
    (∀ z, q.2.1.Has z → (clampInt q.2.2.1 q.2.2.2 x - x).natAbs ≤ (z - x).natAbs) ∧
    q.1.Has q.2.2.1 ∧ q.1.Has q.2.2.2 := by
  intro q hq x hx
  simp only [intPairs, List.mem_cons, List.not_mem_nil, or_false] at hq
  rcases hq with rfl | rfl | rfl | rfl | rfl | rfl <;>
    simp only [IntTy.Has, IntTy.signed, IntTy.bits, Bool.false_eq_true, if_true, if_false, clampInt] at * <;>
    norm_num at * <;>
    (refine ⟨?_, ?_, ?_⟩ <;> intros <;> split_ifs <;> omega)

/-- C75: every implemented conversion from a floating-point type returns a value of the target type,
and for numbers up to its bounds the integer part. -/
theorem C75_float_targets : ∀ q ∈ floatTargets, ∀ x : ℚ,
    q.1.Has (clampQ q.2.1 q.2.2 x) ∧ (∀ n : Int, q.1.Has n → x = n → clampQ q.2.1 q.2.2 x = n) ∧
    (∀ n : Int, q.1.Has n → (n : ℚ) ≤ x → x < n + 1 → clampQ q.2.1 q.2.2 x = n) := by
  intro q hq x
  simp only [floatTargets, List.mem_cons, List.not_mem_nil, or_false] at hq
  rcases hq with rfl | rfl | rfl | rfl <;>
    simp only [IntTy.Has, IntTy.signed, IntTy.bits, Bool.false_eq_true, if_false] <;>
    (rw [clampQ_eq _ _ _ (by norm_num)]
     refine ⟨by omega, fun n hn e => ?_, fun n hn h1 h2 => ?_⟩
     · rw [e, truncQ_int]; omega
     · have ht : truncQ x = n := by
         unfold truncQ
         have : (0 : ℚ) ≤ n := by exact_mod_cast hn.1
         rw [if_pos (by linarith), Int.floor_eq_iff]
         exact ⟨h1, h2⟩
       rw [ht]; omega)

example : clampInt 0 255 300 = 255 ∧ clampInt 0 255 (-4) = 0 ∧ clampInt 0 255 254 = 254 := by decide
example : clampQ 0 255 (511 / 2) = 255 ∧ clampQ 0 255 (509 / 2) = 254 ∧ clampQ 0 255 (-1 / 2) = 0 := by
  decide +kernel

end Verif.Definitions
