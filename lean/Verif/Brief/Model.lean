import Verif.Integral.Model
/-
Model of `/repo/src/binary_descriptors/{mod,brief}.rs`.  `u128` words are natural numbers below
`2^128`; `bound` is the number of values of the accumulator type of the integral image (`2^32`).
-/
namespace Verif.Brief
open Integral

/-- `local_pixel_average`, brief.rs:70-109. -/
def localPixelAverage (bound : Nat) (I : Image Nat) (x y radius : Nat) : Option Nat :=
  if radius = 0 then some 0
  else
    let yMin := y - radius
    let xMin := x - radius
    (csub I.h 1).bind fun hm => (csub I.w 1).bind fun wm =>
    let yMax := min (y + radius + 1) hm
    let xMax := min (x + radius + 1) wm
    (csub yMax yMin).bind fun dy => (csub xMax xMin).bind fun dx =>
    let area := dy * dx
    if area = 0 then some 0
    else
      (I.get xMax yMax).bind fun br => (I.get xMin yMin).bind fun tl =>
      (I.get xMax yMin).bind fun tr => (I.get xMin yMax).bind fun bl =>
      (cadd bound br tl).bind fun s => (csub s tr).bind fun s => (csub s bl).bind fun total =>
      some (total / area % 256)

/-- `TestPair`, brief.rs:63-68. -/
structure TestPair where
  p0 : Nat × Nat
  p1 : Nat × Nat

/-- `BriefDescriptor`, brief.rs:19-26 (the corner score is always zero here and is omitted). -/
structure Desc where
  bits : List Nat
  pos : Nat × Nat
deriving DecidableEq

/-- `BRIEF_PATCH_RADIUS`, constants.rs:1. -/
def patchRadius : Nat := 15

/-- The body of the loop over test pairs, brief.rs:165-186: `state` is the list of saved chunks
and the current chunk, `(tx, ty)` the top left corner of the patch. -/
def testStep (bound : Nat) (I : Image Nat) (tx ty : Nat) (tp : TestPair × Nat)
    (st : List Nat × Nat) : Option (List Nat × Nat) :=
  let st := if tp.2 ≠ 0 ∧ tp.2 % 128 = 0 then (st.1 ++ [st.2], 0) else st
  (localPixelAverage bound I (tp.1.p0.1 + tx + 1) (tp.1.p0.2 + ty + 1) 2).bind fun a =>
  (localPixelAverage bound I (tp.1.p1.1 + tx + 1) (tp.1.p1.2 + ty + 1) 2).bind fun b =>
  let chunk := st.2 + if a < b then 1 else 0
  if chunk < 2 ^ 128 then some (st.1, chunk * 2 % 2 ^ 128) else none

/-- The bits of one descriptor, brief.rs:150-189. -/
def briefOne (bound : Nat) (I : Image Nat) (pairs : List TestPair) (k : Nat × Nat) :
    Option Desc :=
  (csub k.1 patchRadius).bind fun tx => (csub k.2 patchRadius).bind fun ty =>
  (forList pairs.zipIdx ([], 0) (testStep bound I tx ty)).map fun st => ⟨st.1 ++ [st.2], k⟩

/-- The reasons for returning `Err`. -/
inductive BriefError | notMultiple | wrongCount | nearEdge
deriving DecidableEq

/-- The loop over keypoints, brief.rs:135-192 (the first keypoint near the edge aborts). -/
def briefLoop (bound : Nat) (I : Image Nat) (pairs : List TestPair) :
    List (Nat × Nat) → Option (Except BriefError (List Desc))
  | [] => some (.ok [])
  | k :: ks =>
    if k.1 ≤ patchRadius ∨ k.1 + patchRadius ≥ I.w ∨ k.2 ≤ patchRadius ∨ k.2 + patchRadius ≥ I.h then
      some (.error .nearEdge)
    else
      (briefOne bound I pairs k).bind fun d => (briefLoop bound I pairs ks).map fun r =>
      r.map fun ds => d :: ds

/-- `brief_impl`, brief.rs:111-193. -/
def briefImpl (bound : Nat) (I : Image Nat) (keypoints : List (Nat × Nat)) (pairs : List TestPair)
    (length : Nat) : Option (Except BriefError (List Desc)) :=
  if length % 128 ≠ 0 then some (.error .notMultiple)
  else if length ≠ pairs.length then some (.error .wrongCount)
  else briefLoop bound I pairs keypoints

/-- `brief`, brief.rs:222-263, for given test pairs. -/
def brief (bound : Nat) (im : Image Nat) (keypoints : List (Nat × Nat)) (length : Nat)
    (pairs : List TestPair) : Option (Except BriefError (List Desc)) :=
  (integralImage im fun v => v).bind fun I => briefImpl bound I keypoints pairs length

/-- `u128::count_ones`. -/
def countOnes128 (n : Nat) : Nat := ((List.range 128).filter fun i => n.testBit i).length

/-- `hamming_distance`, brief.rs:33-39. -/
def hammingDistance (a b : Desc) : Option Nat :=
  if a.bits.length * 128 = b.bits.length * 128 then
    some ((a.bits.zip b.bits).foldl (fun acc p => acc + countOnes128 (p.1 ^^^ p.2)) 0)
  else none

/-- `get_bit_subset`, brief.rs:41-54. -/
def getBitSubset (d : Desc) (bits : List Nat) : Option Nat :=
  if bits.length ≤ 128 then
    forList bits 0 fun b subset =>
      let subset := subset * 2 % 2 ^ 128
      (d.bits[b / 128]?).bind fun word =>
      let s := subset + (word >>> (b % 128)) % 2
      if s < 2 ^ 128 then some s else none
  else none

/-! ### Matching -/

section Match
variable {T : Type _}

/-- A hash table as an association list: `get`. -/
def lookup (h : Nat) : List (Nat × List T) → Option (List T)
  | [] => none
  | (k, v) :: l => if k = h then some v else lookup h l

/-- `get_mut` then `push`, or `insert`, mod.rs:91-95. -/
def insertPush (h : Nat) (d : T) : List (Nat × List T) → List (Nat × List T)
  | [] => [(h, [d])]
  | (k, v) :: l => if k = h then (k, v ++ [d]) :: l else (k, v) :: insertPush h d l

/-- Building one hash table for the chosen bits, mod.rs:85-96. -/
def buildTable (subset : T → List Nat → Option Nat) (database : List T) (bits : List Nat) :
    Option (List (Nat × List T)) :=
  forList database [] fun d t => (subset d bits).bind fun h => some (insertPush h d t)

/-- The candidates of a query, mod.rs:105-113. -/
def candidatesOf (subset : T → List Nat → Option Nat) (tables : List (List Nat × List (Nat × List T)))
    (q : T) : Option (List T) :=
  forList tables [] fun t cs => (subset q t.1).bind fun h =>
    match lookup h t.2 with
    | some m => some (cs ++ m)
    | none => some cs

/-- The linear scan for the best candidate, mod.rs:115-123; `u32::MAX` is `maxScore`. -/
def bestOf (dist : T → T → Option Nat) (maxScore : Nat) (q : T) (cs : List T) :
    Option (Nat × Option T) :=
  forList cs (maxScore, none) fun c s => (dist q c).bind fun d =>
    if d < s.1 then some (d, some c) else some s

/-- `match_binary_descriptors`, mod.rs:48-134.  `choices` are the randomly chosen bit lists, one
for each hash table. -/
def matchDescriptors (subset : T → List Nat → Option Nat) (dist : T → T → Option Nat)
    (maxScore : Nat) (choices : List (List Nat)) (d1 d2 : List T) (threshold : Nat) :
    Option (List (T × T)) :=
  if d1.isEmpty ∨ d2.isEmpty then some []
  else
    let swapped := decide (d2.length < d1.length)
    let queries := if swapped then d2 else d1
    let database := if swapped then d1 else d2
    (choices.mapM fun bits => (buildTable subset database bits).map fun t => (bits, t)).bind fun tables =>
    forList queries [] fun q out =>
      (candidatesOf subset tables q).bind fun cs => (bestOf dist maxScore q cs).bind fun b =>
      if b.1 < threshold then
        b.2.bind fun c => some (out ++ [if swapped then (c, q) else (q, c)])
      else some out

end Match

end Verif.Brief
