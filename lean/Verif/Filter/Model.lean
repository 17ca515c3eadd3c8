import Verif.Basic.Image
/-
Model of src/filter/mod.rs: `filter`, `filter_parallel`, `horizontal_filter`,
`vertical_filter`, `separable_filter` and of the part of src/kernel.rs they use.

A pixel with channel set `ι` is a function `ι → σ`; `zip` over two channel slices of equal
length is pointwise.  `K` is any type with `0`, `+` and `*`: no algebraic law is assumed by the
model, so rounding arithmetic (`f32`) is an instance.  `into` is `P::Subpixel: Into<K>`.  The
output closure `f` is a pure function (the `FnMut` state is not modelled).  Widths, heights and
kernel lengths are below 2^31 (`as i32` / `as i64` are exact).
-/
namespace Verif.Filter

variable {ι σ τ K : Type _}

/-- `Kernel`, src/kernel.rs:5-12. -/
structure Kernel (K : Type _) where
  data : List K
  w : Nat
  h : Nat

/-- `Kernel::new`, src/kernel.rs:24-32 (the two asserts). -/
def Kernel.new (data : List K) (w h : Nat) : Option (Kernel K) :=
  if 0 < w ∧ 0 < h then if w * h = data.length then some ⟨data, w, h⟩ else none else none

/-- `Kernel::get_unchecked`, src/kernel.rs:53-59; a read past the end is `none`. -/
def Kernel.get (k : Kernel K) (x y : Nat) : Option K := k.data[y * k.w + x]?

/-- `i as u32` for an `i32`/`i64` in range: negative numbers wrap. -/
def asU32 (i : Int) : Nat := (i % 4294967296).toNat

/-- `accumulate`, filter/mod.rs:409-418. -/
def accumulate [Add K] [Mul K] (into : σ → K) (acc : ι → K) (p : ι → σ) (weight : K) : ι → K :=
  fun c => acc c + into (p c) * weight

/-- The two kernel loops of `filter` for one pixel, filter/mod.rs:47-59 (identical in
`filter_parallel`, 98-110). -/
def kernelLoops [Add K] [Mul K] (into : σ → K) (im : Image (ι → σ)) (k : Kernel K) (x y : Nat)
    (acc : ι → K) : Option (ι → K) :=
  forRange 0 k.h acc fun ky acc =>
    let yp := asU32 (min ((im.h : Int) - 1) (max 0 ((y : Int) + ky - (k.h : Int) / 2)))
    forRange 0 k.w acc fun kx acc =>
      let xp := asU32 (min ((im.w : Int) - 1) (max 0 ((x : Int) + kx - (k.w : Int) / 2)))
      (im.get xp yp).bind fun p =>
      (k.get kx ky).bind fun weight =>
      some (accumulate into acc p weight)

/-- `filter`, filter/mod.rs:29-70.  `zt` is the zero subpixel that `Image::new` writes. -/
def filter [Zero K] [Add K] [Mul K] (into : σ → K) (zt : τ) (im : Image (ι → σ)) (k : Kernel K)
    (f : K → τ) : Option (Image (ι → τ)) :=
  (forYX 0 im.h 0 im.w ((Image.new im.w im.h fun _ => zt), fun _ => (0 : K))
    fun x y (st : Image (ι → τ) × (ι → K)) =>
      (kernelLoops into im k x y st.2).bind fun acc =>
      (st.1.put x y fun c => f (acc c)).map fun out => (out, fun _ => 0)).map Prod.fst

/-- One row of `filter_parallel`, filter/mod.rs:92-117. -/
def filterRow [Zero K] [Add K] [Mul K] (into : σ → K) (im : Image (ι → σ)) (k : Kernel K)
    (f : K → τ) (y : Nat) : Option (List (ι → τ)) :=
  (forRange 0 im.w (([] : List (ι → τ)), fun _ => (0 : K))
    fun x (st : List (ι → τ) × (ι → K)) =>
      (kernelLoops into im k x y st.2).map fun acc =>
        (st.1 ++ [fun c => f (acc c)], fun _ => 0)).map Prod.fst

/-- `filter_parallel`, filter/mod.rs:74-125: the rows are computed in an arbitrary order
`sched` and stored by index, then read back by `from_fn`. -/
def filterParallel [Zero K] [Add K] [Mul K] [Inhabited τ] (into : σ → K) (im : Image (ι → σ))
    (k : Kernel K) (f : K → τ) (sched : List Nat) : Option (Image (ι → τ)) :=
  (forList sched (fun _ => (none : Option (List (ι → τ)))) fun y tbl =>
    (filterRow into im k f y).map fun r => fun b => if b = y then some r else tbl b).bind
  fun rows =>
    Image.fromFn im.w im.h fun x y => (rows y).bind fun r => r[x]?

/-- One pixel of `horizontal_filter`: the kernel loop and `clamp_and_reset`
(filter/mod.rs:255-268, 276-286, 290-300, 304-313 and 420-431).  The four copies in the code
differ only in how the unchecked coordinate is brought into range; that is `fix`. -/
def hPixel [Zero K] [Add K] [Mul K] (into : σ → K) (clamp : K → σ) (im : Image (ι → σ))
    (kernel : List K) (fix : Int → Int) (x y : Nat) (st : Image (ι → σ) × (ι → K)) :
    Option (Image (ι → σ) × (ι → K)) :=
  (forRange 0 kernel.length st.2 fun i acc =>
    (im.get (asU32 (fix ((x : Int) + i - (kernel.length : Int) / 2))) y).bind fun p =>
    (kernel[i]?).bind fun k =>
    some (accumulate into acc p k)).bind fun acc =>
  (st.1.put x y fun c => clamp (acc c)).map fun out => (out, fun _ => 0)

/-- `horizontal_filter`, filter/mod.rs:234-316. -/
def horizontalFilter [Zero K] [Add K] [Mul K] (into : σ → K) (clamp : K → σ) (zt : σ)
    (im : Image (ι → σ)) (kernel : List K) : Option (Image (ι → σ)) :=
  let half := kernel.length / 2
  let hi : Int := (im.w : Int) - 1
  let st0 : Image (ι → σ) × (ι → K) := (Image.new im.w im.h fun _ => zt, fun _ => (0 : K))
  if im.w ≤ kernel.length then
    (forYX 0 im.h 0 im.w st0 fun x y st =>
      hPixel into clamp im kernel (fun i => max 0 (min i hi)) x y st).map Prod.fst
  else
    (forRange 0 im.h st0 fun y st =>
      (forRange 0 half st fun x st =>
        hPixel into clamp im kernel (fun i => max 0 i) x y st).bind fun st =>
      (forRange half (im.w - half) st fun x st =>
        hPixel into clamp im kernel (fun i => i) x y st).bind fun st =>
      forRange (im.w - half) im.w st fun x st =>
        hPixel into clamp im kernel (fun i => min i hi) x y st).map Prod.fst

/-- One pixel of `vertical_filter` (filter/mod.rs:342-355, 363-373, 377-389, 393-404), as
`hPixel`. -/
def vPixel [Zero K] [Add K] [Mul K] (into : σ → K) (clamp : K → σ) (im : Image (ι → σ))
    (kernel : List K) (fix : Int → Int) (x y : Nat) (st : Image (ι → σ) × (ι → K)) :
    Option (Image (ι → σ) × (ι → K)) :=
  (forRange 0 kernel.length st.2 fun i acc =>
    (im.get x (asU32 (fix ((y : Int) + i - (kernel.length : Int) / 2)))).bind fun p =>
    (kernel[i]?).bind fun k =>
    some (accumulate into acc p k)).bind fun acc =>
  (st.1.put x y fun c => clamp (acc c)).map fun out => (out, fun _ => 0)

/-- `vertical_filter`, filter/mod.rs:321-407. -/
def verticalFilter [Zero K] [Add K] [Mul K] (into : σ → K) (clamp : K → σ) (zt : σ)
    (im : Image (ι → σ)) (kernel : List K) : Option (Image (ι → σ)) :=
  let half := kernel.length / 2
  let hi : Int := (im.h : Int) - 1
  let st0 : Image (ι → σ) × (ι → K) := (Image.new im.w im.h fun _ => zt, fun _ => (0 : K))
  if im.h ≤ kernel.length then
    (forYX 0 im.h 0 im.w st0 fun x y st =>
      vPixel into clamp im kernel (fun i => max 0 (min i hi)) x y st).map Prod.fst
  else
    ((forYX 0 half 0 im.w st0 fun x y st =>
      vPixel into clamp im kernel (fun i => max 0 i) x y st).bind fun st =>
    (forYX half (im.h - half) 0 im.w st fun x y st =>
      vPixel into clamp im kernel (fun i => i) x y st).bind fun st =>
    forYX (im.h - half) im.h 0 im.w st fun x y st =>
      vPixel into clamp im kernel (fun i => min i hi) x y st).map Prod.fst

/-- `separable_filter`, filter/mod.rs:171-185. -/
def separableFilter [Zero K] [Add K] [Mul K] (into : σ → K) (clamp : K → σ) (zt : σ)
    (im : Image (ι → σ)) (hk vk : List K) : Option (Image (ι → σ)) :=
  if hk.length = vk.length then
    (horizontalFilter into clamp zt im hk).bind fun h => verticalFilter into clamp zt h vk
  else none

/-- `gaussian_kernel_f32`, filter/mod.rs:135-147, over an exact number type; `pdf i` stands for
`gaussian_pdf(i as f32, sigma)` and `radius` for `(2.0 * sigma).ceil() as usize`. -/
def gaussianKernel [Zero K] [Add K] [Div K] (pdf : Nat → K) (radius : Nat) : Option (List K) :=
  (forRange 0 (radius + 1) (List.replicate (2 * radius + 1) (0 : K)) fun i data =>
    if radius + i < data.length ∧ radius - i < data.length then
      some ((data.set (radius + i) (pdf i)).set (radius - i) (pdf i))
    else none).map fun data =>
  let sum := data.foldl (· + ·) 0
  data.map fun x => x / sum

end Verif.Filter
