import Verif.Compose.Props
import Verif.Morphology.Binary
import Verif.Contrast.Threshold
import Verif.Regions.Props
import Verif.Drawing.FillProps
/-
C172: flipping or turning an image by a multiple of 90 degrees and then computing distances, binary
morphology, the adaptive threshold, connected components or a flood fill gives the same as computing
first and flipping or turning the result.  C173: a flood fill recolours exactly one component of
`connected_components`.
-/
namespace Verif.Relations
open Verif.Distance Verif.Morphology Verif.Compose

/-! ### Motions -/

/-- Specification: `σ` moves the pixels of a `w` by `h` image onto those of a `w'` by `h'` image,
one to one and keeping the horizontal and the vertical distance of any two pixels (or exchanging
them). -/
structure Motion (w h w' h' : Nat) (σ : Nat → Nat → Nat × Nat) : Prop where
  maps : ∀ x y, x < w → y < h → (σ x y).1 < w' ∧ (σ x y).2 < h'
  onto : ∀ a b, a < w' → b < h' → ∃ x y, x < w ∧ y < h ∧ σ x y = (a, b)
  rigid : ∀ x y a b, x < w → y < h → a < w → b < h →
    absDiff (σ x y).1 (σ a b).1 = absDiff x a ∧ absDiff (σ x y).2 (σ a b).2 = absDiff y b ∨
    absDiff (σ x y).1 (σ a b).1 = absDiff y b ∧ absDiff (σ x y).2 (σ a b).2 = absDiff x a
  size : w' + h' = w + h

/-- Specification: `im'` shows `im` moved by `σ`. -/
structure Moved {α : Type _} (σ : Nat → Nat → Nat × Nat) (im im' : Image α) : Prop where
  motion : Motion im.w im.h im'.w im'.h σ
  px : ∀ x y, x < im.w → y < im.h → im'.px (σ x y).1 (σ x y).2 = im.px x y

variable {α β : Type _} {σ : Nat → Nat → Nat × Nat}

theorem motion_hv {w h : Nat} (fx fy : Bool) :
    Motion w h w h fun x y => (if fx then w - 1 - x else x, if fy then h - 1 - y else y) where
  maps x y hx hy := by cases fx <;> cases fy <;> simp <;> omega
  onto a b ha hb := by
    refine ⟨if fx then w - 1 - a else a, if fy then h - 1 - b else b, ?_, ?_, ?_⟩
    · cases fx <;> simp <;> omega
    · cases fy <;> simp <;> omega
    · cases fx <;> cases fy <;> simp <;> omega
  rigid x y a b hx hy ha hb := by
    left
    unfold absDiff
    cases fx <;> cases fy <;> simp <;> omega
  size := rfl

theorem motion_quarter {w h : Nat} (f : Bool) :
    Motion w h h w fun x y => if f then (h - 1 - y, x) else (y, w - 1 - x) where
  maps x y hx hy := by cases f <;> simp <;> omega
  onto a b ha hb := by
    cases f
    · exact ⟨w - 1 - b, a, by omega, ha, by simp; omega⟩
    · exact ⟨b, h - 1 - a, hb, by omega, by simp; omega⟩
  rigid x y a b hx hy ha hb := by
    right
    unfold absDiff
    cases f <;> simp <;> omega
  size := Nat.add_comm h w

/-- The motion of `flip_horizontal`. -/
theorem flipHorizontal_moved {im out : Image α} (h : flipHorizontal im = some out) :
    Moved (fun x y => (im.w - 1 - x, y)) im out := by
  obtain ⟨o, e, h1, h2, h3⟩ := C21_flip_horizontal im
  rw [e] at h
  obtain rfl := Option.some.inj h
  refine ⟨?_, fun x y hx hy => ?_⟩
  · rw [h1, h2]; exact motion_hv true false
  · rw [h3 _ _ (by dsimp only; omega) hy]
    dsimp only
    rw [show im.w - 1 - (im.w - 1 - x) = x by omega]

/-- The motion of `flip_vertical`. -/
theorem flipVertical_moved {im out : Image α} (h : flipVertical im = some out) :
    Moved (fun x y => (x, im.h - 1 - y)) im out := by
  obtain ⟨o, e, h1, h2, h3⟩ := C21_flip_vertical im
  rw [e] at h
  obtain rfl := Option.some.inj h
  refine ⟨?_, fun x y hx hy => ?_⟩
  · rw [h1, h2]; exact motion_hv false true
  · rw [h3 _ _ hx (by dsimp only; omega)]
    dsimp only
    rw [show im.h - 1 - (im.h - 1 - y) = y by omega]

/-- The motion of `rotate180`. -/
theorem rotate180_moved {im out : Image α} (h : rotate180 im = some out) :
    Moved (fun x y => (im.w - 1 - x, im.h - 1 - y)) im out := by
  obtain ⟨o, e, h1, h2, h3⟩ := C21_rotate180 im
  rw [e] at h
  obtain rfl := Option.some.inj h
  refine ⟨?_, fun x y hx hy => ?_⟩
  · rw [h1, h2]; exact motion_hv true true
  · rw [h3 _ _ (by dsimp only; omega) (by dsimp only; omega)]
    dsimp only
    rw [show im.h - 1 - (im.h - 1 - y) = y by omega, show im.w - 1 - (im.w - 1 - x) = x by omega]

/-- The motion of `rotate90`. -/
theorem rotate90_moved {z : α} {im out : Image α} (h : rotate90 z im = some out) :
    Moved (fun x y => (im.h - 1 - y, x)) im out := by
  obtain ⟨o, e, h1, h2, h3⟩ := C21_rotate90 z im
  rw [e] at h
  obtain rfl := Option.some.inj h
  refine ⟨?_, h3⟩
  rw [h1, h2]; exact motion_quarter true

/-- The motion of `rotate270`. -/
theorem rotate270_moved {z : α} {im out : Image α} (h : rotate270 z im = some out) :
    Moved (fun x y => (y, im.w - 1 - x)) im out := by
  obtain ⟨o, e, h1, h2, h3⟩ := C21_rotate270 z im
  rw [e] at h
  obtain rfl := Option.some.inj h
  refine ⟨?_, h3⟩
  rw [h1, h2]; exact motion_quarter false

/-! ### Distances and morphology -/

theorem Motion.inj {w h w' h' : Nat} (m : Motion w h w' h' σ) {x y a b : Nat} (hx : x < w) (hy : y < h)
    (ha : a < w) (hb : b < h) (e : σ x y = σ a b) : x = a ∧ y = b := by
  have := m.rigid x y a b hx hy ha hb
  rw [e] at this
  unfold absDiff at this
  omega

theorem Motion.dist {w h w' h' : Nat} (m : Motion w h w' h' σ) {linf : Bool} {x y a b : Nat}
    (hx : x < w) (hy : y < h) (ha : a < w) (hb : b < h) :
    dist linf (σ x y).1 (σ x y).2 (σ a b).1 (σ a b).2 = dist linf x y a b := by
  unfold Distance.dist distLInf distL1
  rcases m.rigid x y a b hx hy ha hb with ⟨h1, h2⟩ | ⟨h1, h2⟩
  · rw [h1, h2]
  · rw [h1, h2, max_comm, Nat.add_comm]

theorem Motion.within {w h w' h' : Nat} (m : Motion w h w' h' σ) {norm : Norm} {k x y a b : Nat}
    (hx : x < w) (hy : y < h) (ha : a < w) (hb : b < h) :
    Within norm k (σ x y).1 (σ x y).2 (σ a b).1 (σ a b).2 ↔ Within norm k x y a b := by
  have sq : ∀ u v : Nat, ((u : Int) - v) ^ 2 = ((absDiff u v : Nat) : Int) ^ 2 := by
    intro u v
    unfold absDiff
    rw [Int.natCast_natAbs, sq_abs]
  have hr := m.rigid x y a b hx hy ha hb
  cases norm
  · unfold Within
    dsimp only
    unfold absDiff at hr
    omega
  · unfold Within
    dsimp only
    rw [sq, sq, sq, sq]
    rcases hr with ⟨h1, h2⟩ | ⟨h1, h2⟩
    · rw [h1, h2]
    · rw [h1, h2, add_comm]
  · unfold Within
    dsimp only
    unfold absDiff at hr
    omega

theorem Moved.exists_iff {im im' : Image α} (m : Moved σ im im') {P Q : Nat → Nat → Prop}
    (h : ∀ a b, a < im.w → b < im.h → (Q (σ a b).1 (σ a b).2 ↔ P a b)) :
    (∃ a b, a < im'.w ∧ b < im'.h ∧ Q a b) ↔ ∃ a b, a < im.w ∧ b < im.h ∧ P a b := by
  constructor
  · rintro ⟨a, b, ha, hb, hq⟩
    obtain ⟨x, y, hx, hy, e⟩ := m.motion.onto a b ha hb
    refine ⟨x, y, hx, hy, (h x y hx hy).mp ?_⟩
    rw [e]; exact hq
  · rintro ⟨a, b, ha, hb, hp⟩
    have := m.motion.maps a b ha hb
    exact ⟨_, _, this.1, this.2, (h a b ha hb).mpr hp⟩

theorem Moved.foreground {im im' : Image Nat} (m : Moved σ im im') :
    (∃ a b, a < im'.w ∧ b < im'.h ∧ im'.px a b ≠ 0) ↔ ∃ a b, a < im.w ∧ b < im.h ∧ im.px a b ≠ 0 :=
  m.exists_iff fun a b ha hb => by rw [m.px a b ha hb]

theorem moved_of {im : Image α} {im' : Image α} {r r' : Image β} (m : Moved σ im im')
    (h1 : r.w = im.w) (h2 : r.h = im.h) (h3 : r'.w = im'.w) (h4 : r'.h = im'.h)
    (h : ∀ x y, x < im.w → y < im.h → r'.px (σ x y).1 (σ x y).2 = r.px x y) : Moved σ r r' := by
  refine ⟨?_, fun x y hx hy => h x y (h1 ▸ hx) (h2 ▸ hy)⟩
  rw [h1, h2, h3, h4]
  exact m.motion

/-- The `L1` and `LInf` distance transforms. -/
theorem C172_distance (linf : Bool) {im im' : Image Nat} (m : Moved σ im im') :
    ∃ r r', distanceTransform linf im = some r ∧ distanceTransform linf im' = some r' ∧
      Moved σ r r' := by
  by_cases hfg : ∃ a b, a < im.w ∧ b < im.h ∧ im.px a b ≠ 0
  · obtain ⟨r, er, r1, r2, r3⟩ := C31_exact linf im hfg
    obtain ⟨r', er', s1, s2, s3⟩ := C31_exact linf im' (m.foreground.mpr hfg)
    refine ⟨r, r', er, er', moved_of m r1 r2 s1 s2 fun x y hx hy => ?_⟩
    have hσ := m.motion.maps x y hx hy
    obtain ⟨⟨a, b, ⟨ha, hb, hab⟩, e⟩, hle⟩ := r3 x y hx hy
    obtain ⟨⟨a', b', ⟨ha', hb', hab'⟩, e'⟩, hle'⟩ := s3 _ _ hσ.1 hσ.2
    obtain ⟨u, v, hu, hv, euv⟩ := m.motion.onto a' b' ha' hb'
    have d1 := m.motion.dist (linf := linf) hx hy ha hb
    have d2 := m.motion.dist (linf := linf) hx hy hu hv
    have hm1 := m.motion.maps a b ha hb
    have k1 := hle' _ _ hm1.1 hm1.2 (by rw [m.px a b ha hb]; exact hab)
    have k2 := hle u v hu hv (by rw [← m.px u v hu hv, euv]; exact hab')
    rw [euv] at d2
    unfold Distance.dist at d1 d2
    rw [d1] at k1
    rw [d2] at e'
    omega
  · have hz : ∀ x y, x < im.w → y < im.h → im.px x y = 0 := by
      intro x y hx hy
      by_contra hc
      exact hfg ⟨x, y, hx, hy, hc⟩
    have hz' : ∀ x y, x < im'.w → y < im'.h → im'.px x y = 0 := by
      intro x y hx hy
      by_contra hc
      exact hfg (m.foreground.mp ⟨x, y, hx, hy, hc⟩)
    obtain ⟨r, er, r1, r2, r3⟩ := C31_no_foreground linf im hz
    obtain ⟨r', er', s1, s2, s3⟩ := C31_no_foreground linf im' hz'
    refine ⟨r, r', er, er', moved_of m r1 r2 s1 s2 fun x y hx hy => ?_⟩
    have hσ := m.motion.maps x y hx hy
    rw [r3 x y hx hy, s3 _ _ hσ.1 hσ.2, m.motion.size]

theorem Motion.sq {w h w' h' : Nat} (m : Motion w h w' h' σ) {x y a b : Nat}
    (hx : x < w) (hy : y < h) (ha : a < w) (hb : b < h) :
    (((σ x y).1 : ℚ) - (σ a b).1) ^ 2 + (((σ x y).2 : ℚ) - (σ a b).2) ^ 2 =
      ((x : ℚ) - a) ^ 2 + ((y : ℚ) - b) ^ 2 := by
  have sq : ∀ u v : Nat, ((u : ℚ) - v) ^ 2 = ((absDiff u v : Nat) : ℚ) ^ 2 := by
    intro u v
    unfold absDiff
    rw [Nat.cast_natAbs]
    push_cast
    rw [sq_abs]
  rw [sq, sq, sq, sq]
  rcases m.rigid x y a b hx hy ha hb with ⟨h1, h2⟩ | ⟨h1, h2⟩
  · rw [h1, h2]
  · rw [h1, h2, add_comm]

/-- The squared Euclidean distance transform. -/
theorem C172_euclidean {im im' : Image Nat} (m : Moved σ im im') :
    ∃ r r', euclideanSquared im = some r ∧ euclideanSquared im' = some r' ∧ Moved σ r r' := by
  obtain ⟨r, er, r1, r2, r3⟩ := C32_exact im
  obtain ⟨r', er', s1, s2, s3⟩ := C32_exact im'
  refine ⟨r, r', er, er', moved_of m r1 r2 s1 s2 fun x y hx hy => ?_⟩
  have hσ := m.motion.maps x y hx hy
  have h1 := r3 x y hx hy
  have h2 := s3 _ _ hσ.1 hσ.2
  cases e1 : r.px x y with
  | none =>
    rw [e1] at h1
    cases e2 : r'.px (σ x y).1 (σ x y).2 with
    | none => rfl
    | some v =>
      rw [e2] at h2
      obtain ⟨⟨a, b, ha, hb, hab, _⟩, _⟩ := h2
      obtain ⟨u, w, hu, hw, huw⟩ := m.foreground.mp ⟨a, b, ha, hb, hab⟩
      exact (huw (h1 u w hu hw)).elim
  | some v =>
    rw [e1] at h1
    obtain ⟨⟨a, b, ha, hb, hab, ev⟩, hmin⟩ := h1
    have hσab := m.motion.maps a b ha hb
    have hab' : im'.px (σ a b).1 (σ a b).2 ≠ 0 := by rw [m.px a b ha hb]; exact hab
    cases e2 : r'.px (σ x y).1 (σ x y).2 with
    | none =>
      rw [e2] at h2
      exact (hab' (h2 _ _ hσab.1 hσab.2)).elim
    | some v' =>
      rw [e2] at h2
      obtain ⟨⟨a', b', ha', hb', hab2, ev'⟩, hmin'⟩ := h2
      obtain ⟨u, w, hu, hw, euw⟩ := m.motion.onto a' b' ha' hb'
      have k1 := hmin' _ _ hσab.1 hσab.2 hab'
      rw [m.motion.sq hx hy ha hb, ← ev] at k1
      have k2 := hmin u w hu hw (by rw [← m.px u w hu hw, euw]; exact hab2)
      rw [← m.motion.sq hx hy hu hw, euw, ← ev'] at k2
      rw [le_antisymm k1 k2]

theorem hit_moved {im im' : Image Nat} (m : Moved σ im im') (norm : Norm) (k : Nat) {x y : Nat}
    (hx : x < im.w) (hy : y < im.h) (P : Nat → Prop) :
    (∃ a b, (a < im'.w ∧ b < im'.h ∧ P (im'.px a b)) ∧ Within norm k (σ x y).1 (σ x y).2 a b) ↔
      ∃ a b, (a < im.w ∧ b < im.h ∧ P (im.px a b)) ∧ Within norm k x y a b := by
  have := m.exists_iff (P := fun a b => P (im.px a b) ∧ Within norm k x y a b)
    (Q := fun a b => P (im'.px a b) ∧ Within norm k (σ x y).1 (σ x y).2 a b)
    (fun a b ha hb => by rw [m.px a b ha hb, m.motion.within hx hy ha hb])
  simp only [and_assoc] at this ⊢
  exact this

/-- Binary dilation, erosion, opening and closing, for every norm and radius. -/
theorem C172_morphology (norm : Norm) (k : Nat) (hk : k ≤ 255) {im im' : Image Nat}
    (m : Moved σ im im') :
    (∃ r r', dilate norm k im = some r ∧ dilate norm k im' = some r' ∧ Moved σ r r') ∧
    (∃ r r', erode norm k im = some r ∧ erode norm k im' = some r' ∧ Moved σ r r') ∧
    (∃ r r', openBin norm k im = some r ∧ openBin norm k im' = some r' ∧ Moved σ r r') ∧
    ∃ r r', closeBin norm k im = some r ∧ closeBin norm k im' = some r' ∧ Moved σ r r' := by
  have dil : ∀ {im im' : Image Nat}, Moved σ im im' →
      ∃ r r', dilate norm k im = some r ∧ dilate norm k im' = some r' ∧ Moved σ r r' := by
    intro im im' m
    obtain ⟨r, er, r1, r2, r3⟩ := C33_dilate_characterised norm im k hk
    obtain ⟨r', er', s1, s2, s3⟩ := C33_dilate_characterised norm im' k hk
    refine ⟨r, r', er, er', moved_of m r1 r2 s1 s2 fun x y hx hy => ?_⟩
    have hσ := m.motion.maps x y hx hy
    obtain ⟨a1, a2⟩ := r3 x y hx hy
    obtain ⟨b1, b2⟩ := s3 _ _ hσ.1 hσ.2
    have e : r'.px (σ x y).1 (σ x y).2 = 255 ↔ r.px x y = 255 := by
      rw [a2, b2, m.motion.size]
      unfold Fg
      rw [hit_moved m norm k hx hy (· ≠ 0), m.foreground]
    omega
  have ero : ∀ {im im' : Image Nat}, Moved σ im im' →
      ∃ r r', erode norm k im = some r ∧ erode norm k im' = some r' ∧ Moved σ r r' := by
    intro im im' m
    obtain ⟨r, er, r1, r2, r3⟩ := C33_erode_characterised norm im k hk
    obtain ⟨r', er', s1, s2, s3⟩ := C33_erode_characterised norm im' k hk
    refine ⟨r, r', er, er', moved_of m r1 r2 s1 s2 fun x y hx hy => ?_⟩
    have hσ := m.motion.maps x y hx hy
    obtain ⟨a1, a2⟩ := r3 x y hx hy
    obtain ⟨b1, b2⟩ := s3 _ _ hσ.1 hσ.2
    have e : r'.px (σ x y).1 (σ x y).2 = 0 ↔ r.px x y = 0 := by
      rw [a2, b2, m.motion.size]
      unfold Bg
      rw [hit_moved m norm k hx hy (· = 0), m.exists_iff fun a b ha hb => by rw [m.px a b ha hb]]
    omega
  refine ⟨dil m, ero m, ?_, ?_⟩
  · obtain ⟨e, e', h1, h2, h3⟩ := ero m
    obtain ⟨r, r', k1, k2, k3⟩ := dil h3
    exact ⟨r, r', by unfold openBin; rw [h1]; exact k1, by unfold openBin; rw [h2]; exact k2, k3⟩
  · obtain ⟨e, e', h1, h2, h3⟩ := dil m
    obtain ⟨r, r', k1, k2, k3⟩ := ero h3
    exact ⟨r, r', by unfold closeBin; rw [h1]; exact k1, by unfold closeBin; rw [h2]; exact k2, k3⟩

/-! ### Components and filling -/

theorem connected_moved {im im' : Image α} (m : Moved σ im im') (conn : Regions.Conn)
    {p q : Nat × Nat} (h : Regions.Connected im conn p q) :
    Regions.Connected im' conn (σ p.1 p.2) (σ q.1 q.2) := by
  induction h with
  | refl => exact Relation.ReflTransGen.refl
  | @tail a b _ h2 ih =>
    obtain ⟨h3, h4, h5, h6⟩ := h2
    have ha := m.motion.maps a.1 a.2 h3.1 h3.2
    have hb := m.motion.maps b.1 b.2 h4.1 h4.2
    have hr := m.motion.rigid a.1 a.2 b.1 b.2 h3.1 h3.2 h4.1 h4.2
    refine ih.tail ⟨ha, hb, ?_, ?_⟩
    · cases conn
      · have h5 : Regions.N4 a b := h5
        show Regions.N4 _ _
        unfold Regions.N4 at h5 ⊢
        unfold absDiff at hr
        omega
      · have h5 : Regions.N8 a b := h5
        show Regions.N8 _ _
        refine ⟨fun e => h5.1 ?_, ?_⟩
        · have := m.motion.inj h3.1 h3.2 h4.1 h4.2 e
          exact Prod.ext this.1 this.2
        · have := h5.2
          unfold absDiff at hr
          omega
    · rw [m.px _ _ h3.1 h3.2, m.px _ _ h4.1 h4.2, h6]

/-- A motion back from the moved image. -/
theorem Moved.back {im im' : Image α} (m : Moved σ im im') :
    ∃ τ, Moved τ im' im ∧ ∀ x y, x < im.w → y < im.h → τ (σ x y).1 (σ x y).2 = (x, y) := by
  classical
  let τ : Nat → Nat → Nat × Nat := fun a b =>
    if h : ∃ p : Nat × Nat, p.1 < im.w ∧ p.2 < im.h ∧ σ p.1 p.2 = (a, b) then h.choose else (0, 0)
  have hτ : ∀ x y, x < im.w → y < im.h → τ (σ x y).1 (σ x y).2 = (x, y) := by
    intro x y hx hy
    have h : ∃ p : Nat × Nat, p.1 < im.w ∧ p.2 < im.h ∧ σ p.1 p.2 = ((σ x y).1, (σ x y).2) :=
      ⟨(x, y), hx, hy, rfl⟩
    have e : τ (σ x y).1 (σ x y).2 = h.choose := dif_pos h
    rw [e]
    obtain ⟨h1, h2, h3⟩ := h.choose_spec
    have := m.motion.inj h1 h2 hx hy h3
    exact Prod.ext this.1 this.2
  refine ⟨τ, ⟨⟨?_, ?_, ?_, m.motion.size.symm⟩, ?_⟩, hτ⟩
  · intro a b ha hb
    obtain ⟨x, y, hx, hy, e⟩ := m.motion.onto a b ha hb
    have := hτ x y hx hy
    rw [e] at this
    dsimp only at this
    rw [this]
    exact ⟨hx, hy⟩
  · intro x y hx hy
    have := m.motion.maps x y hx hy
    exact ⟨_, _, this.1, this.2, hτ x y hx hy⟩
  · intro a b c d ha hb hc hd
    obtain ⟨x, y, hx, hy, e⟩ := m.motion.onto a b ha hb
    obtain ⟨u, v, hu, hv, e'⟩ := m.motion.onto c d hc hd
    have h1 := hτ x y hx hy
    have h2 := hτ u v hu hv
    rw [e] at h1
    rw [e'] at h2
    dsimp only at h1 h2
    rw [h1, h2]
    have := m.motion.rigid x y u v hx hy hu hv
    rw [e, e'] at this
    dsimp only at this ⊢
    omega
  · intro a b ha hb
    obtain ⟨x, y, hx, hy, e⟩ := m.motion.onto a b ha hb
    have h1 := hτ x y hx hy
    rw [e] at h1
    dsimp only at h1
    rw [h1]
    dsimp only
    rw [← m.px x y hx hy, e]

/-- `connected_components`: two pixels have the same label exactly if the moved pixels have, and
background stays background.  (The numbering follows the raster order and changes.) -/
theorem C172_components [DecidableEq α] {im im' : Image α} (m : Moved σ im im')
    (conn : Regions.Conn) (bg : α) {out out' : Image Nat}
    (e : Regions.connectedComponents im conn bg = some out)
    (e' : Regions.connectedComponents im' conn bg = some out') {p q : Nat × Nat}
    (hp : im.InB p.1 p.2) (hq : im.InB q.1 q.2) :
    (out'.px (σ p.1 p.2).1 (σ p.1 p.2).2 = out'.px (σ q.1 q.2).1 (σ q.1 q.2).2 ↔
      out.px p.1 p.2 = out.px q.1 q.2) ∧
    (out'.px (σ p.1 p.2).1 (σ p.1 p.2).2 = 0 ↔ out.px p.1 p.2 = 0) := by
  obtain ⟨-, -, h4⟩ := Regions.C04_labels_iff_connected im conn bg out e
  obtain ⟨-, -, h4'⟩ := Regions.C04_labels_iff_connected im' conn bg out' e'
  obtain ⟨h5, -⟩ := Regions.C05_labels_raster_order im conn bg out e
  obtain ⟨h5', -⟩ := Regions.C05_labels_raster_order im' conn bg out' e'
  have z : ∀ {r : Nat × Nat}, im.InB r.1 r.2 →
      (out'.px (σ r.1 r.2).1 (σ r.1 r.2).2 = 0 ↔ out.px r.1 r.2 = 0) := by
    intro r hr
    rw [h5' _ (m.motion.maps _ _ hr.1 hr.2), h5 r hr, m.px _ _ hr.1 hr.2]
  refine ⟨?_, z hp⟩
  by_cases b1 : im.px p.1 p.2 = bg
  · have z1 := (h5 p hp).mpr b1
    rw [z1, (z hp).mpr z1, eq_comm, z hq, eq_comm]
  by_cases b2 : im.px q.1 q.2 = bg
  · have z1 := (h5 q hq).mpr b2
    rw [z1, (z hq).mpr z1, z hp]
  rw [h4 p q hp hq b1 b2, h4' _ _ (m.motion.maps _ _ hp.1 hp.2) (m.motion.maps _ _ hq.1 hq.2)
    (by rw [m.px _ _ hp.1 hp.2]; exact b1) (by rw [m.px _ _ hq.1 hq.2]; exact b2)]
  constructor
  · intro h
    obtain ⟨τ, hm, hτ⟩ := m.back
    have := connected_moved hm conn h
    rw [hτ _ _ hp.1 hp.2, hτ _ _ hq.1 hq.2] at this
    exact this
  · exact connected_moved m conn

/-! ### Flood fill and components -/

theorem region_connected {im : Image α} {x y a b : Nat} (hx : x < im.w) (hy : y < im.h) :
    Drawing.InRegion im (im.px x y) ((x : Int), (y : Int)) ((a : Int), (b : Int)) ↔
      Regions.Connected im .four (x, y) (a, b) := by
  constructor
  · intro h
    obtain ⟨Q, hQ⟩ : ∃ Q : Int × Int, Q = ((a : Int), (b : Int)) := ⟨_, rfl⟩
    have hq : (a, b) = (Q.1.toNat, Q.2.toNat) := by rw [hQ]; rfl
    rw [← hQ] at h
    rw [hq]
    clear hQ hq
    suffices Regions.Connected im .four (x, y) (Q.1.toNat, Q.2.toNat) ∧
        Drawing.HasColour im (im.px x y) Q from this.1
    induction h with
    | refl =>
      refine ⟨Relation.ReflTransGen.refl, ?_⟩
      unfold Drawing.HasColour
      dsimp only
      exact ⟨by omega, by omega, by omega, by omega, rfl⟩
    | @tail c d _ h2 ih =>
      obtain ⟨ih, hc⟩ := ih
      obtain ⟨hn, hd⟩ := h2
      refine ⟨ih.tail ⟨⟨?_, ?_⟩, ⟨?_, ?_⟩, ?_, ?_⟩, hd⟩
      · have := hc.1; have := hc.2.1; dsimp only; omega
      · have := hc.2.2.1; have := hc.2.2.2.1; dsimp only; omega
      · have := hd.1; have := hd.2.1; dsimp only; omega
      · have := hd.2.2.1; have := hd.2.2.2.1; dsimp only; omega
      · show Regions.N4 _ _
        unfold Regions.N4
        have := hc.1; have := hc.2.2.1; have := hd.1; have := hd.2.2.1
        unfold Drawing.Nbr4 at hn
        dsimp only
        omega
      · rw [hc.2.2.2.2, hd.2.2.2.2]
  · intro h
    obtain ⟨Q, hQ⟩ : ∃ Q : Nat × Nat, Q = (a, b) := ⟨_, rfl⟩
    have hq : ((a : Int), (b : Int)) = ((Q.1 : Int), (Q.2 : Int)) := by rw [hQ]
    rw [← hQ] at h
    rw [hq]
    clear hQ hq
    suffices Drawing.InRegion im (im.px x y) ((x : Int), (y : Int)) ((Q.1 : Int), (Q.2 : Int)) ∧
        im.px Q.1 Q.2 = im.px x y from this.1
    induction h with
    | refl => exact ⟨Relation.ReflTransGen.refl, rfl⟩
    | @tail c d _ h2 ih =>
      obtain ⟨ih, hc⟩ := ih
      obtain ⟨h3, h4, h5, h6⟩ := h2
      have hd : im.px d.1 d.2 = im.px x y := by rw [← h6, hc]
      refine ⟨ih.tail ⟨?_, ?_⟩, hd⟩
      · have h5 : Regions.N4 c d := h5
        unfold Regions.N4 at h5
        unfold Drawing.Nbr4
        dsimp only
        omega
      · have := h4.1
        have := h4.2
        unfold Drawing.HasColour
        dsimp only
        exact ⟨by omega, by omega, by omega, by omega, hd⟩

/-- Filling from a pixel recolours exactly the pixels with the label that `connected_components` with
four neighbours gives to that pixel (for a fill colour different from the pixel's colour, and a
background colour different from it). -/
theorem C173_fill_component [DecidableEq α] (im : Image α) (x y : Nat) (f bg : α) (hx : x < im.w)
    (hy : y < im.h) (hf : f ≠ im.px x y) (hbg : im.px x y ≠ bg) (n : Nat)
    (hn : 3 * (im.w * im.h) + 2 ≤ n) {lab : Image Nat}
    (e : Regions.connectedComponents im .four bg = some lab) :
    ∃ out, Drawing.floodFill n im x y f = some out ∧ out.w = im.w ∧ out.h = im.h ∧
      ∀ a b : Nat, a < im.w → b < im.h →
        out.px a b = if lab.px a b = lab.px x y then f else im.px a b := by
  obtain ⟨out, eo, o1, o2, o3⟩ := Drawing.C44_fill_partial im x y f hx hy hf n hn
  refine ⟨out, eo, o1, o2, fun a b ha hb => ?_⟩
  obtain ⟨-, -, h4⟩ := Regions.C04_labels_iff_connected im .four bg lab e
  obtain ⟨h5, -⟩ := Regions.C05_labels_raster_order im .four bg lab e
  have key : Drawing.InRegion im (im.px x y) ((x : Int), (y : Int)) ((a : Int), (b : Int)) ↔
      lab.px a b = lab.px x y := by
    rw [region_connected hx hy, eq_comm]
    by_cases hab : im.px a b = bg
    · constructor
      · intro h
        exfalso
        have hq := (region_connected hx hy).mpr h
        have : im.px a b = im.px x y := by
          rcases Relation.ReflTransGen.cases_tail hq with h1 | ⟨c, _, h1⟩
          · have h1 := Prod.ext_iff.mp h1
            dsimp only at h1
            rw [show a = x by omega, show b = y by omega]
          · have := h1.2.2.2.2.2
            exact this
        exact hbg (this ▸ hab)
      · intro h
        have z := (h5 (a, b) ⟨ha, hb⟩).mpr hab
        dsimp only at z
        rw [z] at h
        exact (hbg ((h5 (x, y) ⟨hx, hy⟩).mp h)).elim
    · exact (h4 (x, y) (a, b) ⟨hx, hy⟩ ⟨ha, hb⟩ hbg hab).symm
  split
  · rename_i h; exact (o3 a b ha hb).1 (key.mpr h)
  · rename_i h; exact (o3 a b ha hb).2 fun h' => h (key.mp h')

/-- Flood fill commutes with motions. -/
theorem C172_fill [DecidableEq α] {im im' : Image α} (m : Moved σ im im') (x y : Nat) (f : α)
    (hx : x < im.w) (hy : y < im.h) (hf : f ≠ im.px x y) (n : Nat)
    (hn : 3 * (im.w * im.h) + 2 ≤ n) (hn' : 3 * (im'.w * im'.h) + 2 ≤ n) :
    ∃ r r', Drawing.floodFill n im x y f = some r ∧
      Drawing.floodFill n im' (σ x y).1 (σ x y).2 f = some r' ∧ Moved σ r r' := by
  have hσ := m.motion.maps x y hx hy
  obtain ⟨r, er, r1, r2, r3⟩ := Drawing.C44_fill_partial im x y f hx hy hf n hn
  obtain ⟨r', er', s1, s2, s3⟩ := Drawing.C44_fill_partial im' _ _ f hσ.1 hσ.2
    (by rw [m.px x y hx hy]; exact hf) n hn'
  refine ⟨r, r', er, er', moved_of m r1 r2 s1 s2 fun a b ha hb => ?_⟩
  have hab := m.motion.maps a b ha hb
  obtain ⟨a1, a2⟩ := r3 a b ha hb
  obtain ⟨b1, b2⟩ := s3 _ _ hab.1 hab.2
  rw [region_connected hx hy] at a1 a2
  rw [region_connected hσ.1 hσ.2] at b1 b2
  by_cases h : Regions.Connected im .four (x, y) (a, b)
  · rw [a1 h, b1 (connected_moved m .four h)]
  · rw [a2 h, b2, m.px a b ha hb]
    intro h'
    obtain ⟨τ, hm, hτ⟩ := m.back
    have := connected_moved hm .four h'
    dsimp only at this
    rw [hτ _ _ hx hy, hτ _ _ ha hb] at this
    exact h this

/-! ### Adaptive threshold -/

open Finset in
theorem sum_moved {im im' : Image Nat} (m : Moved σ im im') :
    ∑ j ∈ range im'.h, ∑ i ∈ range im'.w, im'.px i j =
      ∑ j ∈ range im.h, ∑ i ∈ range im.w, im.px i j := by
  have e : ∀ I : Image Nat, ∑ j ∈ range I.h, ∑ i ∈ range I.w, I.px i j =
      ∑ p ∈ allPx I.w I.h, I.px p.1 p.2 := by
    intro I
    unfold allPx
    rw [sum_product, sum_comm]
  rw [e, e]
  symm
  refine sum_bij (fun p _ => σ p.1 p.2) ?_ ?_ ?_ ?_
  · intro p hp
    rw [mem_allPx] at hp ⊢
    exact m.motion.maps _ _ hp.1 hp.2
  · intro p hp q hq h
    rw [mem_allPx] at hp hq
    have := m.motion.inj hp.1 hp.2 hq.1 hq.2 h
    exact Prod.ext this.1 this.2
  · intro p hp
    rw [mem_allPx] at hp
    obtain ⟨x, y, hx, hy, h⟩ := m.motion.onto _ _ hp.1 hp.2
    exact ⟨(x, y), mem_allPx.mpr ⟨hx, hy⟩, h⟩
  · intro p hp
    rw [mem_allPx] at hp
    exact (m.px _ _ hp.1 hp.2).symm

open Finset in
theorem block_moved {im im' : Image Nat} (m : Moved σ im im') (r : Nat) {x y : Nat}
    (hx : x < im.w) (hy : y < im.h) (g : Nat → Nat) :
    ∑ p ∈ Contrast.block im' (σ x y).1 (σ x y).2 r, g (im'.px p.1 p.2) =
      ∑ p ∈ Contrast.block im x y r, g (im.px p.1 p.2) := by
  symm
  have hmem : ∀ {I : Image Nat} {u v : Nat} {p : Nat × Nat}, p ∈ Contrast.block I u v r ↔
      (p.1 < I.w ∧ p.2 < I.h) ∧ absDiff p.1 u ≤ r ∧ absDiff p.2 v ≤ r := by
    intro I u v p
    unfold Contrast.block
    rw [mem_filter, mem_allPx]
    rfl
  refine sum_bij (fun p _ => σ p.1 p.2) ?_ ?_ ?_ ?_
  · intro p hp
    rw [hmem] at hp ⊢
    refine ⟨m.motion.maps _ _ hp.1.1 hp.1.2, ?_⟩
    have := m.motion.rigid p.1 p.2 x y hp.1.1 hp.1.2 hx hy
    omega
  · intro p hp q hq h
    rw [hmem] at hp hq
    have := m.motion.inj hp.1.1 hp.1.2 hq.1.1 hq.1.2 h
    exact Prod.ext this.1 this.2
  · intro p hp
    rw [hmem] at hp
    obtain ⟨u, v, hu, hv, h⟩ := m.motion.onto _ _ hp.1.1 hp.1.2
    refine ⟨(u, v), hmem.mpr ⟨⟨hu, hv⟩, ?_⟩, h⟩
    have := m.motion.rigid u v x y hu hv hx hy
    rw [h] at this
    dsimp only at this ⊢
    omega
  · intro p hp
    rw [hmem] at hp
    rw [m.px _ _ hp.1.1 hp.1.2]

/-- The adaptive threshold. -/
theorem C172_adaptive_threshold (r : Nat) (delta : Int) (hr : 0 < r) {im im' : Image Nat}
    (m : Moved σ im im')
    (hfit : 2 * (∑ j ∈ Finset.range im.h, ∑ i ∈ Finset.range im.w, im.px i j) < 2 ^ 32) :
    ∃ o o', Contrast.adaptiveThreshold im r delta = some o ∧
      Contrast.adaptiveThreshold im' r delta = some o' ∧ Moved σ o o' := by
  obtain ⟨o, eo, o1, o2, o3⟩ := Contrast.C14_adaptive_threshold im r delta hr hfit
  obtain ⟨o', eo', s1, s2, s3⟩ := Contrast.C14_adaptive_threshold im' r delta hr
    (by rw [sum_moved m]; exact hfit)
  refine ⟨o, o', eo, eo', moved_of m o1 o2 s1 s2 fun x y hx hy => ?_⟩
  have hσ := m.motion.maps x y hx hy
  have hc := block_moved m r hx hy fun _ => 1
  rw [← Finset.card_eq_sum_ones, ← Finset.card_eq_sum_ones] at hc
  rw [o3 x y hx hy, s3 _ _ hσ.1 hσ.2, hc, block_moved m r hx hy fun v => v, m.px x y hx hy]

/-! ### The library's own flips and turns -/

theorem Moved.unique {im im' im'' : Image α} (m : Moved σ im im') (m' : Moved σ im im'')
    {a b : Nat} (ha : a < im'.w) (hb : b < im'.h) :
    im'.px a b = im''.px a b := by
  obtain ⟨x, y, hx, hy, e⟩ := m.motion.onto a b ha hb
  have e1 := m.px x y hx hy
  have e2 := m'.px x y hx hy
  rw [e] at e1 e2
  exact e1.trans e2.symm

/-- Turning by a quarter and then dilating gives the picture that dilating and then turning by a
quarter gives. -/
theorem C172_rotate90_dilate (norm : Norm) (k : Nat) (hk : k ≤ 255) (im : Image Nat) :
    ∃ t d dt td, rotate90 0 im = some t ∧ dilate norm k im = some d ∧ dilate norm k t = some td ∧
      rotate90 0 d = some dt ∧ td.w = dt.w ∧ td.h = dt.h ∧
      ∀ a b, a < td.w → b < td.h → td.px a b = dt.px a b := by
  obtain ⟨t, et, t1, t2, t3⟩ := C21_rotate90 0 im
  have mt := rotate90_moved et
  obtain ⟨⟨d, td, ed, etd, md⟩, -⟩ := C172_morphology norm k hk mt
  obtain ⟨dt, edt, u1, u2, u3⟩ := C21_rotate90 0 d
  have mdt := rotate90_moved edt
  obtain ⟨d', ed', w1, w2, -⟩ := C33_dilate_characterised norm im k hk
  obtain ⟨td', etd', v1, v2, -⟩ := C33_dilate_characterised norm t k hk
  obtain rfl := Option.some.inj (ed.symm.trans ed')
  obtain rfl := Option.some.inj (etd.symm.trans etd')
  rw [w2] at mdt
  exact ⟨t, d, dt, td, et, ed, etd, edt, by rw [v1, u1, t1, w2], by rw [v2, u2, t2, w1],
    fun a b ha hb => md.unique mdt ha hb⟩

/-- A corner pixel of a 3 by 2 image, turned by a quarter and dilated. -/
example : ((rotate90 0 (Image.mk 3 2 fun x y => if x = 0 ∧ y = 0 then 255 else 0)).bind
    (dilate .L1 1)).map (fun o => (o.w, o.h, o.px 0 0, o.px 1 0, o.px 0 1, o.px 1 1)) =
      some (2, 3, 255, 255, 0, 255) := by
  decide +kernel

/-- Its distance transform. -/
example : ((rotate90 0 (Image.mk 3 2 fun x y => if x = 0 ∧ y = 0 then 255 else 0)).bind
    (distanceTransform false)).map (fun o => (o.px 0 0, o.px 1 0, o.px 0 2)) = some (1, 0, 3) := by
  decide +kernel

/-- The fill from the corner of a 2 by 2 image with one pixel of another colour. -/
example : ((Drawing.floodFill 14 (Image.mk 2 2 fun x y => if x = 1 ∧ y = 0 then 7 else 5) 0 0 9).map
    fun o => (o.px 0 0, o.px 1 0, o.px 0 1, o.px 1 1)) = some (9, 7, 9, 9) ∧
    ((Regions.connectedComponents (Image.mk 2 2 fun x y => if x = 1 ∧ y = 0 then 7 else 5) .four
      0).map fun o => (o.px 0 0, o.px 1 0, o.px 0 1, o.px 1 1)) = some (1, 2, 1, 1) := by
  decide +kernel

end Verif.Relations
