import Verif.Morphology.Masks
/- C34, C35: grayscale dilation, erosion, opening and closing. -/
namespace Verif.Morphology

/-! ### Specification -/

/-- `(a, b)` is the in-bounds pixel at offset `o` from `(x, y)`. -/
def AtOff (im : Image Nat) (x y : Nat) (o : Off) (a b : Nat) : Prop :=
  (a : Int) = x + o.1 ∧ (b : Int) = y + o.2 ∧ a < im.w ∧ b < im.h

/-! ### Loops that add conditions -/

section conj
variable {T : Type} (R : T → Nat → Prop)

/-- One more condition per pixel: `s'` has the size of `s` and satisfies `R t` exactly where `s` does
and `Q` holds. -/
def Adds (Q : Nat → Nat → T → Prop) (s s' : Image Nat) : Prop :=
  s'.w = s.w ∧ s'.h = s.h ∧
    ∀ c d t, c < s.w → d < s.h → (R t (s'.px c d) ↔ R t (s.px c d) ∧ Q c d t)

variable {R}

theorem adds_forList {α : Type} {f : α → Image Nat → Option (Image Nat)} (w h : Nat)
    (Q : α → Nat → Nat → T → Prop) :
    ∀ (l : List α) (s : Image Nat), s.w = w → s.h = h →
      (∀ a ∈ l, ∀ s : Image Nat, s.w = w → s.h = h →
        ∃ s', f a s = some s' ∧ Adds R (Q a) s s') →
      ∃ s', forList l s f = some s' ∧ Adds R (fun c d t => ∀ a ∈ l, Q a c d t) s s'
  | [], s, _, _, _ => ⟨s, rfl, rfl, rfl, fun c d t _ _ => by simp⟩
  | a :: l, s, h1, h2, hf => by
    obtain ⟨s1, e1, w1, hh1, r1⟩ := hf a (by simp) s h1 h2
    obtain ⟨s2, e2, w2, hh2, r2⟩ := adds_forList w h Q l s1 (w1.trans h1) (hh1.trans h2)
      (fun b hb => hf b (List.mem_cons_of_mem _ hb))
    refine ⟨s2, ?_, w2.trans w1, hh2.trans hh1, ?_⟩
    · unfold forList; rw [e1, Option.bind_some]; exact e2
    · intro c d t hc hd
      rw [r2 c d t (by omega) (by omega), r1 c d t hc hd]
      simp only [List.mem_cons, forall_eq_or_imp, and_assoc]

theorem adds_forRange {f : Nat → Image Nat → Option (Image Nat)} {w h n : Nat}
    (Q : Nat → Nat → Nat → T → Prop) {s : Image Nat} (h1 : s.w = w) (h2 : s.h = h)
    (hf : ∀ i, i < n → ∀ s : Image Nat, s.w = w → s.h = h →
        ∃ s', f i s = some s' ∧ Adds R (Q i) s s') :
    ∃ s', forRange 0 n s f = some s' ∧ Adds R (fun c d t => ∀ i, i < n → Q i c d t) s s' := by
  obtain ⟨s', e, hI⟩ := forRange_spec (f := f)
    (fun i s' => Adds R (fun c d t => ∀ j, j < i → Q j c d t) s s') (lo := 0) (hi := n) (s := s)
    (Nat.zero_le _) ⟨rfl, rfl, fun c d t _ _ => by simp⟩
    (by
      rintro i s1 _ hi ⟨w1, hh1, r1⟩
      obtain ⟨s2, e2, w2, hh2, r2⟩ := hf i hi s1 (w1.trans h1) (hh1.trans h2)
      refine ⟨s2, e2, w2.trans w1, hh2.trans hh1, ?_⟩
      intro c d t hc hd
      rw [r2 c d t (by omega) (by omega), r1 c d t hc hd, and_assoc]
      constructor
      · rintro ⟨a, b, c⟩
        refine ⟨a, fun j hj => ?_⟩
        rcases Nat.lt_or_eq_of_le (Nat.lt_succ_iff.1 hj) with h | h
        · exact b j h
        · rw [h]; exact c
      · rintro ⟨a, b⟩
        exact ⟨a, fun j hj => b j (by omega), b i (by omega)⟩)
  exact ⟨s', e, hI⟩

variable {op : Nat → Nat → Nat} (hop : ∀ t a b, R t (op a b) ↔ R t a ∧ R t b)
include hop

theorem reduceRow_spec (im : Image Nat) (y : Int) (i : Nat) (x : Int) (s : Image Nat)
    (hw : s.w = im.w) (hh : s.h = im.h) (hi : i + y.toNat < im.h ∧ i + (-y).toNat < im.h) :
    ∃ s', reduceRow im op y.toNat (-y).toNat i x s = some s' ∧
      Adds R (fun c d t => d = i + (-y).toNat → ∀ a b, AtOff im c d (x, y) a b → R t (im.px a b))
        s s' := by
  unfold reduceRow
  dsimp only
  obtain ⟨s', e, w', h', r'⟩ := adds_forRange (R := R) (w := im.w) (h := im.h)
    (n := min (im.w - x.toNat) (im.w - (-x).toNat))
    (f := fun j out =>
      (im.get (j + x.toNat) (i + y.toNat)).bind fun input =>
      (out.get (j + (-x).toNat) (i + (-y).toNat)).bind fun cur =>
      out.put (j + (-x).toNat) (i + (-y).toNat) (op input cur))
    (fun j c d t => c = j + (-x).toNat → d = i + (-y).toNat →
      R t (im.px (j + x.toNat) (i + y.toNat))) hw hh
    (by
      intro j hj s hw hh
      rw [Image.get_of_inB (by omega) (by omega), Option.bind_some,
        Image.get_of_inB (by omega) (by omega), Option.bind_some,
        Image.put_of_inB _ (by omega) (by omega)]
      refine ⟨_, rfl, rfl, rfl, ?_⟩
      intro c d t hc hd
      dsimp only
      by_cases hcd : c = j + (-x).toNat ∧ d = i + (-y).toNat
      · rw [if_pos hcd, hop, ← hcd.1, ← hcd.2]
        simp [and_comm]
      · rw [if_neg hcd]
        constructor
        · intro h; exact ⟨h, fun h1 h2 => absurd ⟨h1, h2⟩ hcd⟩
        · exact And.left)
  refine ⟨s', e, w', h', ?_⟩
  intro c d t hc hd
  rw [r' c d t hc hd]
  refine and_congr_right fun _ => ?_
  constructor
  · rintro h hd' a b ⟨h1, h2, h3, h4⟩
    dsimp only at h1 h2
    have := h (c - (-x).toNat) (by omega) (by omega) hd'
    rw [show c - (-x).toNat + x.toNat = a by omega, show i + y.toNat = b by omega] at this
    exact this
  · intro h j hj hc' hd'
    refine h hd' _ _ ⟨?_, ?_, ?_, ?_⟩
    · push_cast; omega
    · push_cast; omega
    · omega
    · omega

omit hop in
theorem mem_chunkByY (mask : List Off) (x y : Int) :
    (x, y) ∈ mask ↔ ∃ g ∈ chunkByY mask, g.1 = y ∧ x ∈ g.2 := by
  induction mask with
  | nil => simp [chunkByY]
  | cons p rest ih =>
    obtain ⟨px, py⟩ := p
    rw [List.mem_cons, ih, chunkByY]
    cases hc : chunkByY rest with
    | nil =>
      simp only [consGroup, List.not_mem_nil, false_and, exists_false, or_false, List.mem_singleton,
        exists_eq_left, Prod.mk.injEq]
      tauto
    | cons g gs =>
      unfold consGroup
      dsimp only
      split
      · rename_i h
        simp only [List.mem_cons, exists_eq_or_imp, Prod.mk.injEq]
        subst h
        tauto
      · simp only [List.mem_cons, exists_eq_or_imp, Prod.mk.injEq, List.not_mem_nil, or_false]
        tauto

theorem maskReduce_spec (im : Image Nat) (mask : List Off) (neutral : Nat)
    (hw0 : 0 < im.w) :
    ∃ r, maskReduce im mask neutral op = some r ∧ r.w = im.w ∧ r.h = im.h ∧
      ∀ c d t, c < im.w → d < im.h → (R t (r.px c d) ↔
        R t neutral ∧ ∀ o ∈ mask, ∀ a b, AtOff im c d o a b → R t (im.px a b)) := by
  unfold maskReduce
  obtain ⟨r, e, w', h', r'⟩ := adds_forList (R := R) im.w im.h
    (f := fun g out =>
      if im.w = 0 then none
      else
        forRange 0 (min (im.h - g.1.toNat) (im.h - (-g.1).toNat)) out fun i out =>
          forList g.2 out fun x out => reduceRow im op g.1.toNat (-g.1).toNat i x out)
    (fun g c d t => ∀ x ∈ g.2, ∀ a b, AtOff im c d (x, g.1) a b → R t (im.px a b))
    (chunkByY mask) (Image.new im.w im.h neutral) rfl rfl
    (by
      rintro ⟨y, xs⟩ hg s hw hh
      dsimp only
      rw [if_neg (by omega)]
      obtain ⟨s', e, w', h', r'⟩ := adds_forRange (R := R) (w := im.w) (h := im.h)
        (n := min (im.h - y.toNat) (im.h - (-y).toNat))
        (f := fun i out => forList xs out fun x out =>
          reduceRow im op y.toNat (-y).toNat i x out)
        (fun i c d t => ∀ x ∈ xs, d = i + (-y).toNat → ∀ a b, AtOff im c d (x, y) a b →
          R t (im.px a b)) hw hh
        (by
          intro i hi s hw hh
          exact adds_forList (R := R) im.w im.h
            (fun x c d t => d = i + (-y).toNat → ∀ a b, AtOff im c d (x, y) a b → R t (im.px a b))
            xs s hw hh
            (fun x _ s hw hh => reduceRow_spec hop im y i x s hw hh (by omega)))
      refine ⟨s', e, w', h', ?_⟩
      intro c d t hc hd
      rw [r' c d t hc hd]
      refine and_congr_right fun _ => ?_
      constructor
      · intro h x hx a b hab
        have hab' := hab
        obtain ⟨h1, h2, h3, h4⟩ := hab'
        dsimp only at h2
        exact h (d - (-y).toNat) (by omega) x hx (by omega) a b hab
      · intro h i _ x hx _ a b hab
        exact h x hx a b hab)
  refine ⟨r, e, w', h', ?_⟩
  intro c d t hc hd
  rw [r' c d t hc hd]
  refine and_congr_right fun _ => ?_
  constructor
  · rintro h ⟨x, y⟩ ho a b hab
    obtain ⟨g, hg, rfl, hx⟩ := (mem_chunkByY mask x y).1 ho
    exact h g hg x hx a b hab
  · intro h g hg x hx a b hab
    exact h (x, g.1) ((mem_chunkByY mask x g.1).2 ⟨g, hg, rfl, hx⟩) a b hab

end conj

/-- Dilation as a least upper bound. -/
theorem grayDilate_le (im : Image Nat) (mask : List Off) (hw : 0 < im.w) :
    ∃ r, grayDilate im mask = some r ∧ r.w = im.w ∧ r.h = im.h ∧
      ∀ c d t, c < im.w → d < im.h → (r.px c d ≤ t ↔
        ∀ o ∈ mask, ∀ a b, AtOff im c d o a b → im.px a b ≤ t) := by
  obtain ⟨r, e, h1, h2, h3⟩ := maskReduce_spec (R := fun t v => v ≤ t) (op := max)
    (fun t a b => max_le_iff) im mask 0 hw
  exact ⟨r, e, h1, h2, fun c d t hc hd => by rw [h3 c d t hc hd]; simp⟩

/-- Erosion as a greatest lower bound. -/
theorem grayErode_ge (im : Image Nat) (mask : List Off) (hw : 0 < im.w) :
    ∃ r, grayErode im mask = some r ∧ r.w = im.w ∧ r.h = im.h ∧
      ∀ c d t, c < im.w → d < im.h → (t ≤ r.px c d ↔
        t ≤ 255 ∧ ∀ o ∈ mask, ∀ a b, AtOff im c d o a b → t ≤ im.px a b) := by
  exact maskReduce_spec (R := fun t v => t ≤ v) (op := min)
    (fun t a b => le_min_iff) im mask 255 hw

/-- C34: dilation is the maximum over the translated mask, 0 where it misses the image. -/
theorem C34_dilate (im : Image Nat) (mask : List Off) (hw : 0 < im.w) :
    ∃ r, grayDilate im mask = some r ∧ r.w = im.w ∧ r.h = im.h ∧
      ∀ x y, x < im.w → y < im.h →
        (∀ o ∈ mask, ∀ a b, AtOff im x y o a b → im.px a b ≤ r.px x y) ∧
        ((∃ o ∈ mask, ∃ a b, AtOff im x y o a b) →
          ∃ o ∈ mask, ∃ a b, AtOff im x y o a b ∧ im.px a b = r.px x y) ∧
        ((¬ ∃ o ∈ mask, ∃ a b, AtOff im x y o a b) → r.px x y = 0) := by
  obtain ⟨r, e, h1, h2, h3⟩ := grayDilate_le im mask hw
  refine ⟨r, e, h1, h2, ?_⟩
  intro x y hx hy
  have hup := (h3 x y (r.px x y) hx hy).1 (le_refl _)
  refine ⟨hup, ?_, ?_⟩
  · rintro ⟨o, ho, a, b, hab⟩
    by_contra hc
    have : r.px x y ≤ r.px x y - 1 := by
      rw [h3 x y _ hx hy]
      intro o ho a b hab
      have := hup o ho a b hab
      have : im.px a b ≠ r.px x y := fun h => hc ⟨o, ho, a, b, hab, h⟩
      omega
    have h0 : r.px x y = 0 := by omega
    have := hup o ho a b hab
    exact hc ⟨o, ho, a, b, hab, by omega⟩
  · intro hno
    have : r.px x y ≤ 0 := by
      rw [h3 x y _ hx hy]
      intro o ho a b hab
      exact absurd ⟨o, ho, a, b, hab⟩ hno
    omega

/-- C34: erosion is the minimum over the translated mask, 255 where it misses the image. -/
theorem C34_erode (im : Image Nat) (mask : List Off) (hw : 0 < im.w)
    (hb : ∀ x y, x < im.w → y < im.h → im.px x y ≤ 255) :
    ∃ r, grayErode im mask = some r ∧ r.w = im.w ∧ r.h = im.h ∧
      ∀ x y, x < im.w → y < im.h →
        (∀ o ∈ mask, ∀ a b, AtOff im x y o a b → r.px x y ≤ im.px a b) ∧
        ((∃ o ∈ mask, ∃ a b, AtOff im x y o a b) →
          ∃ o ∈ mask, ∃ a b, AtOff im x y o a b ∧ im.px a b = r.px x y) ∧
        ((¬ ∃ o ∈ mask, ∃ a b, AtOff im x y o a b) → r.px x y = 255) := by
  obtain ⟨r, e, h1, h2, h3⟩ := grayErode_ge im mask hw
  refine ⟨r, e, h1, h2, ?_⟩
  intro x y hx hy
  obtain ⟨h255, hup⟩ := (h3 x y (r.px x y) hx hy).1 (le_refl _)
  refine ⟨hup, ?_, ?_⟩
  · rintro ⟨o, ho, a, b, hab⟩
    by_contra hc
    have hlt : r.px x y < 255 := by
      have h4 := hup o ho a b hab
      have h5 : im.px a b ≠ r.px x y := fun h => hc ⟨o, ho, a, b, hab, h⟩
      have h6 := hb a b hab.2.2.1 hab.2.2.2
      omega
    have : r.px x y + 1 ≤ r.px x y := by
      rw [h3 x y _ hx hy]
      refine ⟨hlt, fun o ho a b hab => ?_⟩
      have := hup o ho a b hab
      have : im.px a b ≠ r.px x y := fun h => hc ⟨o, ho, a, b, hab, h⟩
      omega
    omega
  · intro hno
    have : 255 ≤ r.px x y := by
      rw [h3 x y _ hx hy]
      exact ⟨le_refl _, fun o ho a b hab => absurd ⟨o, ho, a, b, hab⟩ hno⟩
    omega

/-- C34: a zero-width image panics as soon as the mask is not empty, and is returned unchanged
otherwise. -/
theorem C34_zero_width (im : Image Nat) (mask : List Off) (hw : im.w = 0) :
    (grayDilate im mask = none ↔ mask ≠ []) ∧ (grayErode im mask = none ↔ mask ≠ []) := by
  have key : ∀ n op, maskReduce im mask n op = none ↔ mask ≠ [] := by
    intro n op
    cases mask with
    | nil => simp [maskReduce, chunkByY, forList]
    | cons p rest =>
      have : ∃ g gs, chunkByY (p :: rest) = g :: gs := by
        rw [chunkByY]
        cases chunkByY rest with
        | nil => exact ⟨_, _, rfl⟩
        | cons g gs => unfold consGroup; dsimp only; split <;> exact ⟨_, _, rfl⟩
      obtain ⟨g, gs, hg⟩ := this
      unfold maskReduce
      rw [hg]
      simp [forList, hw]
  exact ⟨key _ _, key _ _⟩

example : ((grayDilate (Image.ofRows 0 [[1, 2, 3], [4, 9, 6]]) [(1, 0), (0, 1)]).map Image.rows) =
    some [[4, 9, 6], [9, 6, 0]] := by decide
example : ((grayErode (Image.ofRows 0 [[1, 2, 3], [4, 9, 6]]) [(-5, 0), (0, 1)]).map Image.rows) =
    some [[4, 9, 6], [255, 255, 255]] := by decide

/-! ### C35 -/

/-- Pointwise order of images of equal size. -/
def Le (a b : Image Nat) : Prop :=
  a.w = b.w ∧ a.h = b.h ∧ ∀ x y, x < a.w → y < a.h → a.px x y ≤ b.px x y

theorem Le.trans {a b c : Image Nat} (h : Le a b) (k : Le b c) : Le a c :=
  ⟨h.1.trans k.1, h.2.1.trans k.2.1, fun x y hx hy =>
    (h.2.2 x y hx hy).trans (k.2.2 x y (h.1 ▸ hx) (h.2.1 ▸ hy))⟩

theorem Le.refl (a : Image Nat) : Le a a := ⟨rfl, rfl, fun _ _ _ _ => le_refl _⟩

theorem same_of_le {a b : Image Nat} (h : Le a b) (k : Le b a) : Image.Same a b :=
  ⟨h.1, h.2.1, fun x y hx hy => le_antisymm (h.2.2 x y hx hy) (k.2.2 x y (h.1 ▸ hx) (h.2.1 ▸ hy))⟩

/-- `GrayImage` pixels are bytes. -/
def Bytes (im : Image Nat) : Prop := ∀ x y, x < im.w → y < im.h → im.px x y ≤ 255

/-- A mask containing the opposite of each of its offsets. -/
def Symmetric (mask : List Off) : Prop := ∀ o ∈ mask, (-o.1, -o.2) ∈ mask

theorem dilate_mono {a b : Image Nat} {mask : List Off} (hw : 0 < a.w) (h : Le a b) :
    ∃ r s, grayDilate a mask = some r ∧ grayDilate b mask = some s ∧ Le r s := by
  obtain ⟨r, er, r1, r2, r3⟩ := grayDilate_le a mask hw
  obtain ⟨s, es, s1, s2, s3⟩ := grayDilate_le b mask (h.1 ▸ hw)
  refine ⟨r, s, er, es, by rw [r1, s1, h.1], by rw [r2, s2, h.2.1], fun x y hx hy => ?_⟩
  rw [r1] at hx; rw [r2] at hy
  rw [r3 x y _ hx hy]
  intro o ho c d hcd
  have := (s3 x y _ (h.1 ▸ hx) (h.2.1 ▸ hy)).1 (le_refl _) o ho c d
    (by unfold AtOff at hcd ⊢; rw [← h.1, ← h.2.1]; exact hcd)
  exact le_trans (h.2.2 c d hcd.2.2.1 hcd.2.2.2) this

theorem erode_mono {a b : Image Nat} {mask : List Off} (hw : 0 < a.w) (h : Le a b) :
    ∃ r s, grayErode a mask = some r ∧ grayErode b mask = some s ∧ Le r s := by
  obtain ⟨r, er, r1, r2, r3⟩ := grayErode_ge a mask hw
  obtain ⟨s, es, s1, s2, s3⟩ := grayErode_ge b mask (h.1 ▸ hw)
  refine ⟨r, s, er, es, by rw [r1, s1, h.1], by rw [r2, s2, h.2.1], fun x y hx hy => ?_⟩
  rw [r1] at hx; rw [r2] at hy
  rw [s3 x y _ (h.1 ▸ hx) (h.2.1 ▸ hy)]
  obtain ⟨h255, hr⟩ := (r3 x y _ hx hy).1 (le_refl _)
  refine ⟨h255, ?_⟩
  intro o ho c d hcd
  have hcd' : AtOff a x y o c d := by unfold AtOff at hcd ⊢; rw [h.1, h.2.1]; exact hcd
  exact le_trans (hr o ho c d hcd') (h.2.2 c d hcd'.2.2.1 hcd'.2.2.2)

/-- The adjunction for symmetric masks. -/
theorem adjunction {f g : Image Nat} {mask : List Off} (hs : Symmetric mask) (hw : 0 < f.w)
    (h1 : f.w = g.w) (h2 : f.h = g.h) (hb : Bytes f) :
    ∃ df eg, grayDilate f mask = some df ∧ grayErode g mask = some eg ∧ (Le df g ↔ Le f eg) := by
  obtain ⟨df, ed, d1, d2, d3⟩ := grayDilate_le f mask hw
  obtain ⟨eg, ee, e1, e2, e3⟩ := grayErode_ge g mask (h1 ▸ hw)
  refine ⟨df, eg, ed, ee, ?_, ?_⟩
  · rintro ⟨-, -, h⟩
    refine ⟨by omega, by omega, fun x y hx hy => ?_⟩
    rw [e3 x y _ (by omega) (by omega)]
    refine ⟨hb x y hx hy, ?_⟩
    rintro ⟨ox, oy⟩ ho a b ⟨q1, q2, q3, q4⟩
    have := h a b (by omega) (by omega)
    rw [d3 a b _ (by omega) (by omega)] at this
    refine this _ (hs _ ho) x y ⟨?_, ?_, hx, hy⟩
    · dsimp only at *; omega
    · dsimp only at *; omega
  · rintro ⟨-, -, h⟩
    refine ⟨by omega, by omega, fun x y hx hy => ?_⟩
    rw [d3 x y _ (by omega) (by omega)]
    rintro ⟨ox, oy⟩ ho a b ⟨q1, q2, q3, q4⟩
    have := h a b q3 q4
    rw [e3 a b _ (by omega) (by omega)] at this
    refine this.2 _ (hs _ ho) x y ⟨?_, ?_, by omega, by omega⟩
    · dsimp only at *; omega
    · dsimp only at *; omega

theorem erode_bytes {g eg : Image Nat} {mask : List Off} (hw : 0 < g.w)
    (h : grayErode g mask = some eg) : Bytes eg ∧ eg.w = g.w ∧ eg.h = g.h := by
  obtain ⟨r, e, h1, h2, h3⟩ := grayErode_ge g mask hw
  rw [e] at h; injection h with h; subst h
  exact ⟨fun x y hx hy => ((h3 x y _ (h1 ▸ hx) (h2 ▸ hy)).1 (le_refl _)).1, h1, h2⟩

theorem dilate_bytes {g eg : Image Nat} {mask : List Off} (hw : 0 < g.w) (hb : Bytes g)
    (h : grayDilate g mask = some eg) : Bytes eg ∧ eg.w = g.w ∧ eg.h = g.h := by
  obtain ⟨r, e, h1, h2, h3⟩ := grayDilate_le g mask hw
  rw [e] at h; injection h with h; subst h
  refine ⟨fun x y hx hy => ?_, h1, h2⟩
  rw [h3 x y _ (h1 ▸ hx) (h2 ▸ hy)]
  intro o _ a b hab
  exact hb a b hab.2.2.1 hab.2.2.2

theorem grayOpen_spec {im : Image Nat} {mask : List Off} (hw : 0 < im.w) :
    ∃ e r, grayErode im mask = some e ∧ grayDilate e mask = some r ∧
      grayOpen im mask = some r ∧ Bytes e ∧ Bytes r ∧ e.w = im.w ∧ e.h = im.h ∧ r.w = im.w ∧
      r.h = im.h := by
  obtain ⟨e, ee, e1, e2, -⟩ := grayErode_ge im mask hw
  obtain ⟨be, -, -⟩ := erode_bytes hw ee
  obtain ⟨r, er, r1, r2, -⟩ := grayDilate_le e mask (by omega)
  obtain ⟨br, -, -⟩ := dilate_bytes (by omega) be er
  exact ⟨e, r, ee, er, by unfold grayOpen; rw [ee]; exact er, be, br, e1, e2, r1.trans e1,
    r2.trans e2⟩

theorem grayClose_spec {im : Image Nat} {mask : List Off} (hw : 0 < im.w) (hb : Bytes im) :
    ∃ e r, grayDilate im mask = some e ∧ grayErode e mask = some r ∧
      grayClose im mask = some r ∧ Bytes e ∧ Bytes r ∧ e.w = im.w ∧ e.h = im.h ∧ r.w = im.w ∧
      r.h = im.h := by
  obtain ⟨e, ee, e1, e2, -⟩ := grayDilate_le im mask hw
  obtain ⟨be, -, -⟩ := dilate_bytes hw hb ee
  obtain ⟨r, er, r1, r2, -⟩ := grayErode_ge e mask (by omega)
  obtain ⟨br, -, -⟩ := erode_bytes (by omega) er
  exact ⟨e, r, ee, er, by unfold grayClose; rw [ee]; exact er, be, br, e1, e2, r1.trans e1,
    r2.trans e2⟩

/-- C35: opening and closing are monotone, for every mask. -/
theorem C35_monotone (mask : List Off) (a b : Image Nat) (hw : 0 < a.w) (h : Le a b) :
    (∃ r s, grayOpen a mask = some r ∧ grayOpen b mask = some s ∧ Le r s) ∧
    (∃ r s, grayClose a mask = some r ∧ grayClose b mask = some s ∧ Le r s) := by
  constructor
  · obtain ⟨r, s, er, es, hrs⟩ := erode_mono (mask := mask) hw h
    obtain ⟨-, hwr, -⟩ := erode_bytes hw er
    obtain ⟨t, u, et, eu, htu⟩ := dilate_mono (mask := mask) (by omega) hrs
    exact ⟨t, u, by unfold grayOpen; rw [er]; exact et, by unfold grayOpen; rw [es]; exact eu, htu⟩
  · obtain ⟨r, s, er, es, hrs⟩ := dilate_mono (mask := mask) hw h
    obtain ⟨q, eq, hwr, -⟩ := grayDilate_le a mask hw
    rw [er] at eq; injection eq with eq; subst eq
    obtain ⟨t, u, et, eu, htu⟩ := erode_mono (mask := mask) (by omega) hrs
    exact ⟨t, u, by unfold grayClose; rw [er]; exact et, by unfold grayClose; rw [es]; exact eu,
      htu⟩

/-- C35 for symmetric masks: opening never brightens and is idempotent.  For masks that are not
symmetric the claim is false, see `C35_negation`. -/
theorem C35_open_partial (mask : List Off) (hs : Symmetric mask) (im : Image Nat) (hw : 0 < im.w) :
    ∃ r s, grayOpen im mask = some r ∧ Le r im ∧ grayOpen r mask = some s ∧ Image.Same s r := by
  obtain ⟨e, r, ee, er, eo, be, br, e1, e2, r1, r2⟩ := grayOpen_spec (mask := mask) hw
  have hle : Le r im := by
    obtain ⟨df, eg, h1, h2, h3⟩ := adjunction (f := e) (g := im) hs (by omega) e1 e2 be
    rw [er] at h1; injection h1 with h1; subst h1
    rw [ee] at h2; injection h2 with h2; subst h2
    exact h3.2 (Le.refl _)
  obtain ⟨e', s, ee', es, eo', be', -, e1', e2', s1, s2⟩ := grayOpen_spec (mask := mask) (im := r)
    (by omega)
  refine ⟨r, s, eo, hle, eo', same_of_le ?_ ?_⟩
  · obtain ⟨df, eg, h1, h2, h3⟩ := adjunction (f := e') (g := r) hs (by omega) e1' e2' be'
    rw [es] at h1; injection h1 with h1; subst h1
    rw [ee'] at h2; injection h2 with h2; subst h2
    exact h3.2 (Le.refl _)
  · -- e ≤ e' since dilate e = r ≤ r
    have hee' : Le e e' := by
      obtain ⟨df, eg, h1, h2, h3⟩ := adjunction (f := e) (g := r) hs (by omega) (by omega)
        (by omega) be
      rw [er] at h1; injection h1 with h1; subst h1
      rw [ee'] at h2; injection h2 with h2; subst h2
      exact h3.1 (Le.refl _)
    obtain ⟨a, b, ha, hb, hab⟩ := dilate_mono (mask := mask) (by omega) hee'
    rw [er] at ha; injection ha with ha; subst ha
    rw [es] at hb; injection hb with hb; subst hb
    exact hab

/-- C35 for symmetric masks: closing never darkens and is idempotent. -/
theorem C35_close_partial (mask : List Off) (hs : Symmetric mask) (im : Image Nat) (hw : 0 < im.w)
    (hb : Bytes im) :
    ∃ r s, grayClose im mask = some r ∧ Le im r ∧ grayClose r mask = some s ∧ Image.Same s r := by
  obtain ⟨e, r, ee, er, eo, be, br, e1, e2, r1, r2⟩ := grayClose_spec (mask := mask) hw hb
  have hle : Le im r := by
    obtain ⟨df, eg, h1, h2, h3⟩ := adjunction (f := im) (g := e) hs (by omega) e1.symm e2.symm hb
    rw [ee] at h1; injection h1 with h1; subst h1
    rw [er] at h2; injection h2 with h2; subst h2
    exact h3.1 (Le.refl _)
  obtain ⟨e', s, ee', es, eo', be', -, e1', e2', s1, s2⟩ := grayClose_spec (mask := mask) (im := r)
    (by omega) br
  refine ⟨r, s, eo, hle, eo', same_of_le ?_ ?_⟩
  · -- e' ≤ e
    have hee' : Le e' e := by
      obtain ⟨df, eg, h1, h2, h3⟩ := adjunction (f := r) (g := e) hs (by omega) (by omega)
        (by omega) br
      rw [ee'] at h1; injection h1 with h1; subst h1
      rw [er] at h2; injection h2 with h2; subst h2
      exact h3.2 (Le.refl _)
    obtain ⟨a, b, ha, hb, hab⟩ := erode_mono (mask := mask) (by omega) hee'
    rw [es] at ha; injection ha with ha; subst ha
    rw [er] at hb; injection hb with hb; subst hb
    exact hab
  · obtain ⟨df, eg, h1, h2, h3⟩ := adjunction (f := r) (g := e') hs (by omega) (by omega)
      (by omega) br
    rw [ee'] at h1; injection h1 with h1; subst h1
    rw [es] at h2; injection h2 with h2; subst h2
    exact h3.1 (Le.refl _)

/-- C35, exact value of the opening, for every mask: a pixel reaches the level `t` exactly when some
in-bounds position at a mask offset from it has only pixels of at least `t` under its own mask. -/
theorem C35_open_exact (mask : List Off) (im : Image Nat) (hw : 0 < im.w) :
    ∃ r, grayOpen im mask = some r ∧ r.w = im.w ∧ r.h = im.h ∧
      ∀ x y t, x < im.w → y < im.h → 0 < t → (t ≤ r.px x y ↔ t ≤ 255 ∧
        ∃ o ∈ mask, ∃ a b, AtOff im x y o a b ∧
          ∀ o' ∈ mask, ∀ c d, AtOff im a b o' c d → t ≤ im.px c d) := by
  obtain ⟨e, ee, e1, e2, e3⟩ := grayErode_ge im mask hw
  obtain ⟨r, er, r1, r2, r3⟩ := grayDilate_le e mask (by omega)
  refine ⟨r, by unfold grayOpen; rw [ee]; exact er, by omega, by omega, ?_⟩
  intro x y t hx hy ht
  have h1 := r3 x y (t - 1) (by omega) (by omega)
  have h2 : t ≤ r.px x y ↔ ¬ r.px x y ≤ t - 1 := by omega
  rw [h2, h1]
  push Not
  constructor
  · rintro ⟨o, ho, a, b, hab, hlt⟩
    have hab' : AtOff im x y o a b := by unfold AtOff at hab ⊢; rw [← e1, ← e2]; exact hab
    obtain ⟨h3, h4⟩ := (e3 a b t hab'.2.2.1 hab'.2.2.2).1 (by omega)
    exact ⟨h3, o, ho, a, b, hab', h4⟩
  · rintro ⟨h3, o, ho, a, b, hab, h4⟩
    have := (e3 a b t hab.2.2.1 hab.2.2.2).2 ⟨h3, h4⟩
    exact ⟨o, ho, a, b, by unfold AtOff at hab ⊢; rw [e1, e2]; exact hab, by omega⟩

/-- C35, exact value of the closing, for every mask: a pixel stays below `t` exactly when some
in-bounds position at a mask offset from it has only pixels below `t` under its own mask. -/
theorem C35_close_exact (mask : List Off) (im : Image Nat) (hw : 0 < im.w) :
    ∃ r, grayClose im mask = some r ∧ r.w = im.w ∧ r.h = im.h ∧
      ∀ x y t, x < im.w → y < im.h → 0 < t → t ≤ 255 → (r.px x y < t ↔
        ∃ o ∈ mask, ∃ a b, AtOff im x y o a b ∧
          ∀ o' ∈ mask, ∀ c d, AtOff im a b o' c d → im.px c d < t) := by
  obtain ⟨e, ee, e1, e2, e3⟩ := grayDilate_le im mask hw
  obtain ⟨r, er, r1, r2, r3⟩ := grayErode_ge e mask (by omega)
  refine ⟨r, by unfold grayClose; rw [ee]; exact er, by omega, by omega, ?_⟩
  intro x y t hx hy ht ht'
  have h1 := r3 x y t (by omega) (by omega)
  rw [← not_le, h1]
  push Not
  constructor
  · intro h
    obtain ⟨o, ho, a, b, hab, hlt⟩ := h ht'
    have hab' : AtOff im x y o a b := by unfold AtOff at hab ⊢; rw [← e1, ← e2]; exact hab
    have h4 := (e3 a b (t - 1) hab'.2.2.1 hab'.2.2.2).1 (by omega)
    exact ⟨o, ho, a, b, hab', fun o' ho' c d hcd => by have := h4 o' ho' c d hcd; omega⟩
  · rintro ⟨o, ho, a, b, hab, h4⟩ _
    have := (e3 a b (t - 1) hab.2.2.1 hab.2.2.2).2
      (fun o' ho' c d hcd => by have := h4 o' ho' c d hcd; omega)
    exact ⟨o, ho, a, b, by unfold AtOff at hab ⊢; rw [e1, e2]; exact hab, by omega⟩

example : ((grayOpen (Image.ofRows 0 [[9, 9, 2, 9], [9, 9, 3, 4]]) [(-1, 0), (0, 0), (1, 0)]).map
    Image.rows) = some [[9, 9, 2, 2], [9, 9, 3, 3]] := by decide

/-- C35: the masks offered by the library are symmetric, so C35 holds for them. -/
theorem C35_library_masks (r : Nat) (hr : r ≤ 255) :
    (∃ m, square r = some m ∧ Symmetric m) ∧ (∃ m, diamond r = some m ∧ Symmetric m) ∧
      ∃ m, disk r = some m ∧ Symmetric m := by
  refine ⟨?_, ?_, ?_⟩
  · obtain ⟨m, e, -, h⟩ := C36_square r hr
    refine ⟨m, e, ?_⟩
    rintro ⟨x, y⟩ ho
    rw [h] at ho ⊢; omega
  · obtain ⟨m, e, -, h⟩ := C36_diamond r hr
    refine ⟨m, e, ?_⟩
    rintro ⟨x, y⟩ ho
    rw [h] at ho ⊢; omega
  · obtain ⟨m, e, -, h⟩ := C36_disk r hr
    refine ⟨m, e, ?_⟩
    rintro ⟨x, y⟩ ho
    rw [h] at ho ⊢
    rw [show (-x) ^ 2 + (-y) ^ 2 = x ^ 2 + y ^ 2 by ring]; exact ho

/-- C35 fails for a mask that is not symmetric: the opening of `[0, 0, 5]` with the mask `{(1, 0)}`
brightens pixels and is changed by opening again; closing darkens. -/
theorem C35_negation :
    (fromImage (Image.ofRows 0 [[0, 1]]) 0 0 = some [(1, 0)]) ∧
    ((grayOpen (Image.ofRows 0 [[0, 0, 5]]) [(1, 0)]).map Image.rows = some [[5, 255, 0]]) ∧
    ((grayOpen (Image.ofRows 0 [[5, 255, 0]]) [(1, 0)]).map Image.rows = some [[0, 255, 0]]) ∧
    ((grayClose (Image.ofRows 0 [[9, 0, 0]]) [(1, 0)]).map Image.rows = some [[0, 0, 255]]) := by
  decide

end Verif.Morphology
