import Verif.Drawing.EllipseModel
import Verif.Drawing.CircleProps
import Mathlib.Data.List.Chain
import Mathlib.Tactic.LinearCombination
/-
Property theorems C97 (hollow ellipses) and C98 (filled ellipses).
-/
namespace Verif.Drawing

/-! ### Specification -/

/-- The ellipse `x²/a² + y²/b² = 1` multiplied by `a² b²`: negative inside, positive outside. -/
def ellF (a b : Int) (x y : ℚ) : ℚ := (b : ℚ) ^ 2 * x ^ 2 + (a : ℚ) ^ 2 * y ^ 2 - (a : ℚ) ^ 2 * (b : ℚ) ^ 2

/-- The ideal ellipse passes within less than a pixel of `(x, y)`: half a pixel beyond it in the
direction of one of the axes is outside (or on) the ellipse; half a pixel back vertically, or one pixel back
horizontally, is inside (or on) it. -/
def NearEllipse (a b : Int) (q : Int × Int) : Prop :=
  (0 ≤ ellF a b q.1 (q.2 + 1 / 2) ∨ 0 ≤ ellF a b (q.1 + 1 / 2) q.2) ∧
  (ellF a b q.1 (q.2 - 1 / 2) ≤ 0 ∨ ellF a b (q.1 - 1) q.2 ≤ 0)

/-- `q` is the right, lower or lower right neighbour of `p` (in the quadrant where `y` is the
distance above the centre). -/
def QuadStep (p q : Int × Int) : Prop :=
  q = (p.1 + 1, p.2) ∨ q = (p.1 + 1, p.2 - 1) ∨ q = (p.1, p.2 - 1)

/-- `L` is a quadrant of the outline of an ellipse with radii `a`, `b`: an unbroken monotone path
of pixels from `(0, b)` down to the horizontal axis, each near the ideal curve and within the bounding box;
it reaches the tip `(a, 0)` exactly if `a < 8 b²`, and in every row above the axis its last pixel is
followed by a pixel outside the ellipse. -/
structure Quadrant (a b : Int) (L : List (Int × Int)) : Prop where
  head : L.head? = some (0, b)
  path : L.IsChain QuadStep
  last : ∃ x, L.getLast? = some (x, 0)
  box : ∀ q ∈ L, 0 ≤ q.1 ∧ q.1 ≤ a ∧ 0 ≤ q.2 ∧ q.2 ≤ b
  near : ∀ q ∈ L, NearEllipse a b q
  tip : L.getLast? = some (a, 0) ↔ a < 8 * b ^ 2
  row : ∀ y : Int, 1 ≤ y → y ≤ b → ∃ x, (x, y) ∈ L ∧ 0 ≤ ellF a b (x + 1) y

/-! ### The two loops -/

theorem ellF_mono {a b : Int} {x y x' y' : ℚ} (hx : 0 ≤ x) (hy : 0 ≤ y) (hxx : x ≤ x')
    (hyy : y ≤ y') : ellF a b x y ≤ ellF a b x' y' := by
  unfold ellF
  have h1 : x ^ 2 ≤ x' ^ 2 := pow_le_pow_left₀ hx hxx 2
  have h2 : y ^ 2 ≤ y' ^ 2 := pow_le_pow_left₀ hy hyy 2
  have h3 := mul_le_mul_of_nonneg_left h1 (sq_nonneg (b : ℚ))
  have h4 := mul_le_mul_of_nonneg_left h2 (sq_nonneg (a : ℚ))
  linarith

/-- Inside the ellipse and above the axis the abscissa is below `a`. -/
theorem lt_of_ellF_le {a b : Int} {x y : ℚ} (ha : 0 ≤ a) (hb : 0 < b)
    (h : ellF a b x y ≤ 0) : x ≤ a := by
  by_contra hc
  push Not at hc
  have ha' : (0 : ℚ) ≤ a := by exact_mod_cast ha
  have hb' : (0 : ℚ) < b := by exact_mod_cast hb
  unfold ellF at h
  have h1 : (a : ℚ) ^ 2 < x ^ 2 := pow_lt_pow_left₀ hc ha' (by norm_num)
  have h2 := mul_lt_mul_of_pos_left h1 (pow_pos hb' 2)
  have h3 := mul_nonneg (sq_nonneg (a : ℚ)) (sq_nonneg y)
  linarith

theorem lt_of_ellF_le' {a b : Int} {x y : ℚ} (ha : 0 < a) (hb : 0 < b) (hy : 0 < y)
    (h : ellF a b x y ≤ 0) : x < a := by
  by_contra hc
  push Not at hc
  have ha' : (0 : ℚ) < a := by exact_mod_cast ha
  have hb' : (0 : ℚ) < b := by exact_mod_cast hb
  unfold ellF at h
  have h1 : (a : ℚ) ^ 2 ≤ x ^ 2 := pow_le_pow_left₀ ha'.le hc 2
  have h2 := mul_le_mul_of_nonneg_left h1 (pow_pos hb' 2).le
  have h3 := mul_pos (pow_pos ha' 2) (pow_pos hy 2)
  linarith

/-- State of the outline at a pixel of the top region. -/
structure TopInv (a b x y : Int) : Prop where
  x0 : 0 ≤ x
  xa : x ≤ a
  y0 : 0 ≤ y
  yb : y ≤ b
  hi : 0 ≤ ellF a b x (y + 1 / 2)
  lo : (b : ℚ) ^ 2 * x < (a : ℚ) ^ 2 * y → ellF a b x (y - 1 / 2) ≤ 0
  lo' : ellF a b x (y - 1 / 2) ≤ 0 ∨ (1 ≤ x ∧ ellF a b (x - 1) (y + 1 / 2) ≤ 0) ∨ (b = 0 ∧ x = 0)

theorem TopInv.near {a b x y : Int} (h : TopInv a b x y) : NearEllipse a b (x, y) := by
  refine ⟨Or.inl h.hi, ?_⟩
  rcases h.lo' with h1 | ⟨h1, h2⟩ | ⟨h1, h2⟩
  · exact Or.inl h1
  · right
    refine le_trans (ellF_mono ?_ ?_ le_rfl ?_) h2
    · have : (1 : ℚ) ≤ x := by exact_mod_cast h1
      dsimp only; linarith
    · exact_mod_cast h.y0
    · dsimp only; linarith
  · right
    have hy : y = 0 := by have := h.y0; have := h.yb; omega
    subst h1; subst h2; subst hy
    unfold ellF; norm_num

universe u

theorem top_spec (a b : Int) : ∀ (n : Nat) (x y : Int) (px py p : ℚ), TopInv a b x y →
    px = 2 * (b : ℚ) ^ 2 * x → py = 2 * (a : ℚ) ^ 2 * y → p = ellF a b (x + 1) (y - 1 / 2) →
    a - x < n →
    ∃ (L : List (Int × Int)) (x' y' : Int),
      (∀ {σ : Type u} (draw : Int → Int → σ → Option σ) (s : σ),
        ellipseTop draw ((a : ℚ) ^ 2) ((b : ℚ) ^ 2) n x y px py p s =
          (forList L s fun q s => draw q.1 q.2 s).map fun s =>
            (x', y', 2 * (b : ℚ) ^ 2 * x', 2 * (a : ℚ) ^ 2 * y', s)) ∧
      List.IsChain QuadStep ((x, y) :: L) ∧ ((x, y) :: L).getLast? = some (x', y') ∧
      TopInv a b x' y' ∧ (a : ℚ) ^ 2 * y' ≤ (b : ℚ) ^ 2 * x' ∧ y' ≤ y ∧
      (∀ q ∈ L, TopInv a b q.1 q.2) ∧ (y = 0 → x' = x) ∧
      (∀ Y : Int, y' < Y → Y ≤ y → ∃ X : Int, (X, Y) ∈ (x, y) :: L ∧ 0 ≤ ellF a b (X + 1) Y) := by
  intro n
  induction n with
  | zero => intro x y px py p h _ _ _ hn; have := h.xa; push_cast at hn; omega
  | succ n ih =>
    intro x y px py p h hpx hpy hp hn
    by_cases hc : (b : ℚ) ^ 2 * x < (a : ℚ) ^ 2 * y
    · have hcc : px < py := by rw [hpx, hpy]; linarith
      have hx0 : (0 : ℚ) ≤ x := by exact_mod_cast h.x0
      have hpos : 0 < (a : ℚ) ^ 2 * y :=
        lt_of_le_of_lt (mul_nonneg (sq_nonneg _) hx0) hc
      have hy1 : 0 < y := by
        by_contra hcon
        have : y = 0 := by have := h.y0; omega
        rw [this] at hpos; simp at hpos
      have ha1 : 0 < a := by
        by_contra hcon
        have : a = 0 := by have := h.x0; have := h.xa; omega
        rw [this] at hpos; simp at hpos
      have hb1 : 0 < b := by have := h.yb; omega
      have hy1' : (1 : ℚ) ≤ y := by exact_mod_cast hy1
      have hlo := h.lo hc
      have hxa : x < a := by
        have := lt_of_ellF_le' ha1 hb1 (by linarith) hlo
        exact_mod_cast this
      by_cases hp0 : p < 0
      · have hinv : TopInv a b (x + 1) y := by
          refine ⟨by have := h.x0; omega, by omega, h.y0, h.yb, ?_, fun _ => ?_, Or.inl ?_⟩
          · refine le_trans h.hi (ellF_mono hx0 (by linarith) ?_ le_rfl)
            push_cast; linarith
          · rw [hp] at hp0; push_cast; exact hp0.le
          · rw [hp] at hp0; push_cast; exact hp0.le
        obtain ⟨L, x', y', e, c1, c2, c3, c4, c5, c6, c7, c8⟩ := ih (x + 1) y (px + 2 * (b : ℚ) ^ 2) py
          (p + ((b : ℚ) ^ 2 + (px + 2 * (b : ℚ) ^ 2))) hinv
          (by rw [hpx]; push_cast; ring) hpy
          (by rw [hp, hpx]; unfold ellF; push_cast; ring) (by push_cast at hn; omega)
        refine ⟨(x + 1, y) :: L, x', y', ?_, ?_, ?_, c3, c4, c5, ?_, fun h0 => by omega, ?_⟩
        · intro σ draw s
          rw [ellipseTop, if_pos hcc]
          dsimp only
          rw [if_pos hp0, forList, Option.map_bind]
          congr 1
          funext s
          exact e draw s
        · exact List.IsChain.cons_cons (Or.inl rfl) c1
        · rw [List.getLast?_cons_cons]; exact c2
        · intro q hq
          rcases List.mem_cons.1 hq with rfl | hq
          · exact hinv
          · exact c6 q hq
        · intro Y h1 h2
          obtain ⟨X, hX, hF⟩ := c8 Y h1 h2
          exact ⟨X, List.mem_cons_of_mem _ hX, hF⟩
      · have hinv : TopInv a b (x + 1) (y - 1) := by
          refine ⟨by have := h.x0; omega, by omega, by omega, by have := h.yb; omega, ?_, fun hc' => ?_,
            Or.inr (Or.inl ⟨by have := h.x0; omega, ?_⟩)⟩
          · rw [hp] at hp0; push_cast
            rw [show (y : ℚ) - 1 + 1 / 2 = y - 1 / 2 by ring]
            exact not_lt.1 hp0
          · push_cast at hc' ⊢
            unfold ellF at hlo ⊢
            have e : (b : ℚ) ^ 2 * (x + 1) ^ 2 + (a : ℚ) ^ 2 * (y - 1 - 1 / 2) ^ 2 -
                (a : ℚ) ^ 2 * (b : ℚ) ^ 2 = ((b : ℚ) ^ 2 * x ^ 2 + (a : ℚ) ^ 2 * (y - 1 / 2) ^ 2 -
                (a : ℚ) ^ 2 * (b : ℚ) ^ 2) + (2 * ((b : ℚ) ^ 2 * (x + 1) - (a : ℚ) ^ 2 * (y - 1)) -
                  (b : ℚ) ^ 2) := by ring
            rw [e]
            have := sq_nonneg (b : ℚ)
            linarith
          · push_cast
            rw [show (y : ℚ) - 1 + 1 / 2 = y - 1 / 2 by ring, show (x : ℚ) + 1 - 1 = x by ring]
            exact hlo
        obtain ⟨L, x', y', e, c1, c2, c3, c4, c5, c6, c7, c8⟩ := ih (x + 1) (y - 1)
          (px + 2 * (b : ℚ) ^ 2) (py + -2 * (a : ℚ) ^ 2)
          (p + ((b : ℚ) ^ 2 + (px + 2 * (b : ℚ) ^ 2) - (py + -2 * (a : ℚ) ^ 2))) hinv
          (by rw [hpx]; push_cast; ring) (by rw [hpy]; push_cast; ring)
          (by rw [hp, hpx, hpy]; unfold ellF; push_cast; ring) (by push_cast at hn; omega)
        refine ⟨(x + 1, y - 1) :: L, x', y', ?_, ?_, ?_, c3, c4, by omega, ?_, fun h0 => by omega, ?_⟩
        · intro σ draw s
          rw [ellipseTop, if_pos hcc]
          dsimp only
          rw [if_neg hp0, forList, Option.map_bind]
          congr 1
          funext s
          exact e draw s
        · exact List.IsChain.cons_cons (Or.inr (Or.inl rfl)) c1
        · rw [List.getLast?_cons_cons]; exact c2
        · intro q hq
          rcases List.mem_cons.1 hq with rfl | hq
          · exact hinv
          · exact c6 q hq
        · intro Y h1 h2
          by_cases hY : Y = y
          · subst hY
            refine ⟨x, List.mem_cons_self, ?_⟩
            rw [hp] at hp0
            exact le_trans (not_lt.1 hp0) (ellF_mono (by linarith) (by linarith) le_rfl (by linarith))
          · obtain ⟨X, hX, hF⟩ := c8 Y h1 (by omega)
            exact ⟨X, List.mem_cons_of_mem _ hX, hF⟩
    · have hcc : ¬ px < py := by rw [hpx, hpy]; intro h; exact hc (by linarith)
      refine ⟨[], x, y, ?_, List.isChain_singleton _, rfl, h, not_lt.1 hc, le_rfl, ?_, fun _ => rfl, ?_⟩
      · intro σ draw s
        rw [ellipseTop, if_neg hcc, forList, hpx, hpy]; rfl
      · intro q hq; cases hq
      · intro Y h1 h2; omega

/-- State of the outline at a pixel of the side region. -/
structure SideInv (a b x y : Int) : Prop where
  x0 : 0 ≤ x
  xa : x ≤ a
  y0 : 0 ≤ y
  yb : y ≤ b
  hi : 0 ≤ ellF a b x (y + 1 / 2) ∨ 0 ≤ ellF a b (x + 1 / 2) y
  lo : ellF a b x (y - 1 / 2) ≤ 0 ∨ ellF a b (x - 1) y ≤ 0
  slope : (a : ℚ) ^ 2 * y ≤ (b : ℚ) ^ 2 * x

theorem SideInv.row {a b x y : Int} (h : SideInv a b x y) (hy : 1 ≤ y) :
    0 ≤ ellF a b (x + 1) y := by
  have hx0 : (0 : ℚ) ≤ x := by exact_mod_cast h.x0
  have hy1 : (1 : ℚ) ≤ y := by exact_mod_cast hy
  have hs := h.slope
  rcases h.hi with h1 | h1
  · unfold ellF at h1 ⊢
    have e : (b : ℚ) ^ 2 * (x + 1) ^ 2 + (a : ℚ) ^ 2 * y ^ 2 - (a : ℚ) ^ 2 * (b : ℚ) ^ 2 =
        ((b : ℚ) ^ 2 * x ^ 2 + (a : ℚ) ^ 2 * (y + 1 / 2) ^ 2 - (a : ℚ) ^ 2 * (b : ℚ) ^ 2) +
          (2 * ((b : ℚ) ^ 2 * x - (a : ℚ) ^ 2 * y) + (b : ℚ) ^ 2 + (a : ℚ) ^ 2 * (y - 1 / 4)) := by
      ring
    rw [e]
    have h2 := sq_nonneg (b : ℚ)
    have h3 := mul_nonneg (sq_nonneg (a : ℚ)) (show (0 : ℚ) ≤ y - 1 / 4 by linarith)
    linarith
  · exact le_trans h1 (ellF_mono (by linarith) (by linarith) (by linarith) le_rfl)

theorem side_spec (a b : Int) : ∀ (n : Nat) (x y : Int) (px py p : ℚ), SideInv a b x y →
    px = 2 * (b : ℚ) ^ 2 * x → py = 2 * (a : ℚ) ^ 2 * y → p = ellF a b (x + 1 / 2) (y - 1) →
    y ≤ n →
    ∃ (L : List (Int × Int)) (x' : Int),
      (∀ {σ : Type u} (draw : Int → Int → σ → Option σ) (s : σ),
        ellipseSide draw ((a : ℚ) ^ 2) ((b : ℚ) ^ 2) n x y px py p s =
          forList L s fun q s => draw q.1 q.2 s) ∧
      List.IsChain QuadStep ((x, y) :: L) ∧ ((x, y) :: L).getLast? = some (x', 0) ∧
      (∀ q ∈ L, SideInv a b q.1 q.2) ∧ (y = 0 → x' = x) ∧
      (0 < y → 0 ≤ ellF a b (x' + 1 / 2) 0) ∧ 0 ≤ x' ∧ x' ≤ a ∧
      (∀ Y : Int, 1 ≤ Y → Y ≤ y → ∃ X : Int, (X, Y) ∈ (x, y) :: L ∧ 0 ≤ ellF a b (X + 1) Y) := by
  intro n
  induction n with
  | zero =>
    intro x y px py p h hpx hpy hp hn
    obtain rfl : y = 0 := by have := h.y0; push_cast at hn; omega
    refine ⟨[], x, ?_, List.isChain_singleton _, rfl, ?_, fun _ => rfl, fun h => by omega, h.x0, h.xa, ?_⟩
    · intro σ draw s; rw [ellipseSide, if_neg (by omega)]; rfl
    · intro q hq; cases hq
    · intro Y h1 h2; omega
  | succ n ih =>
    intro x y px py p h hpx hpy hp hn
    have hx0 : (0 : ℚ) ≤ x := by exact_mod_cast h.x0
    by_cases hc : y > 0
    · have hy1' : (1 : ℚ) ≤ y := by exact_mod_cast hc
      have hs := h.slope
      have ha2 := sq_nonneg (a : ℚ)
      have hb2 := sq_nonneg (b : ℚ)
      have hb1 : 0 < b := by have := h.yb; omega
      have ha0 : 0 ≤ a := by have := h.x0; have := h.xa; omega
      by_cases hp0 : p > 0
      · have hinv : SideInv a b x (y - 1) := by
          refine ⟨h.x0, h.xa, by omega, by have := h.yb; omega, Or.inr ?_, ?_, ?_⟩
          · rw [hp] at hp0; push_cast; exact hp0.le
          · rcases h.lo with h1 | h1
            · left
              unfold ellF at h1 ⊢
              push_cast
              have h3 := mul_nonneg ha2 (show (0 : ℚ) ≤ 2 * y - 2 by linarith)
              linarith [show (a : ℚ) ^ 2 * (y - 1 - 1 / 2) ^ 2 = (a : ℚ) ^ 2 * (y - 1 / 2) ^ 2 -
                (a : ℚ) ^ 2 * (2 * y - 2) by ring]
            · right
              unfold ellF at h1 ⊢
              push_cast
              have h3 := mul_nonneg ha2 (show (0 : ℚ) ≤ 2 * y - 1 by linarith)
              linarith [show (a : ℚ) ^ 2 * ((y : ℚ) - 1) ^ 2 = (a : ℚ) ^ 2 * y ^ 2 -
                (a : ℚ) ^ 2 * (2 * y - 1) by ring]
          · push_cast; linarith
        obtain ⟨L, x', e, c1, c2, c3, c4, c5, c6, c7, c8⟩ := ih x (y - 1) px
          (py + -2 * (a : ℚ) ^ 2) (p + ((a : ℚ) ^ 2 - (py + -2 * (a : ℚ) ^ 2))) hinv hpx
          (by rw [hpy]; push_cast; ring) (by rw [hp, hpy]; unfold ellF; push_cast; ring)
          (by push_cast at hn; omega)
        refine ⟨(x, y - 1) :: L, x', ?_, ?_, ?_, ?_, fun h0 => by omega, fun _ => ?_, c6, c7, ?_⟩
        · intro σ draw s
          rw [ellipseSide, if_pos hc]
          dsimp only
          rw [if_pos hp0, forList]
          congr 1
          funext s
          exact e draw s
        · exact List.IsChain.cons_cons (Or.inr (Or.inr rfl)) c1
        · rw [List.getLast?_cons_cons]; exact c2
        · intro q hq
          rcases List.mem_cons.1 hq with rfl | hq
          · exact hinv
          · exact c3 q hq
        · by_cases h1 : y - 1 = 0
          · rw [c4 h1]
            rw [hp] at hp0
            have : (y : ℚ) - 1 = 0 := by exact_mod_cast h1
            rw [this] at hp0; exact hp0.le
          · exact c5 (by omega)
        · intro Y h1 h2
          by_cases hY : Y = y
          · subst hY; exact ⟨x, List.mem_cons_self, h.row h1⟩
          · obtain ⟨X, hX, hF⟩ := c8 Y h1 (by omega)
            exact ⟨X, List.mem_cons_of_mem _ hX, hF⟩
      · have hin : ellF a b (x + 1 / 2) (y - 1) ≤ 0 := by rw [hp] at hp0; exact not_lt.1 hp0
        have hxa : x + 1 ≤ a := by
          have h1 := lt_of_ellF_le ha0 hb1 hin
          have : (x : ℚ) < a := by linarith
          have : x < a := by exact_mod_cast this
          omega
        have hout : 0 ≤ ellF a b (x + 3 / 2) (y - 1) := by
          rcases h.hi with h1 | h1
          · unfold ellF at h1 ⊢
            linarith [show (b : ℚ) ^ 2 * (x + 3 / 2) ^ 2 + (a : ℚ) ^ 2 * (y - 1) ^ 2 -
                (a : ℚ) ^ 2 * (b : ℚ) ^ 2 = ((b : ℚ) ^ 2 * x ^ 2 + (a : ℚ) ^ 2 * (y + 1 / 2) ^ 2 -
                (a : ℚ) ^ 2 * (b : ℚ) ^ 2) + (3 * ((b : ℚ) ^ 2 * x - (a : ℚ) ^ 2 * y) +
                9 / 4 * (b : ℚ) ^ 2 + 3 / 4 * (a : ℚ) ^ 2) by ring]
          · unfold ellF at h1 ⊢
            linarith [show (b : ℚ) ^ 2 * (x + 3 / 2) ^ 2 + (a : ℚ) ^ 2 * (y - 1) ^ 2 -
                (a : ℚ) ^ 2 * (b : ℚ) ^ 2 = ((b : ℚ) ^ 2 * (x + 1 / 2) ^ 2 + (a : ℚ) ^ 2 * y ^ 2 -
                (a : ℚ) ^ 2 * (b : ℚ) ^ 2) + (2 * ((b : ℚ) ^ 2 * x - (a : ℚ) ^ 2 * y) +
                2 * (b : ℚ) ^ 2 + (a : ℚ) ^ 2) by ring]
        have hinv : SideInv a b (x + 1) (y - 1) := by
          refine ⟨by have := h.x0; omega, hxa, by omega, by have := h.yb; omega, Or.inr ?_,
            Or.inr ?_, ?_⟩
          · push_cast
            rw [show (x : ℚ) + 1 + 1 / 2 = x + 3 / 2 by ring]; exact hout
          · push_cast
            rw [show (x : ℚ) + 1 - 1 = x by ring]
            exact le_trans (ellF_mono hx0 (by linarith) (by linarith) le_rfl) hin
          · push_cast; linarith
        obtain ⟨L, x', e, c1, c2, c3, c4, c5, c6, c7, c8⟩ := ih (x + 1) (y - 1)
          (px + 2 * (b : ℚ) ^ 2) (py + -2 * (a : ℚ) ^ 2)
          (p + ((a : ℚ) ^ 2 - (py + -2 * (a : ℚ) ^ 2) + (px + 2 * (b : ℚ) ^ 2))) hinv
          (by rw [hpx]; push_cast; ring)
          (by rw [hpy]; push_cast; ring) (by rw [hp, hpy, hpx]; unfold ellF; push_cast; ring)
          (by push_cast at hn; omega)
        refine ⟨(x + 1, y - 1) :: L, x', ?_, ?_, ?_, ?_, fun h0 => by omega, fun _ => ?_, c6, c7, ?_⟩
        · intro σ draw s
          rw [ellipseSide, if_pos hc]
          dsimp only
          rw [if_neg hp0, forList]
          congr 1
          funext s
          exact e draw s
        · exact List.IsChain.cons_cons (Or.inr (Or.inl rfl)) c1
        · rw [List.getLast?_cons_cons]; exact c2
        · intro q hq
          rcases List.mem_cons.1 hq with rfl | hq
          · exact hinv
          · exact c3 q hq
        · by_cases h1 : y - 1 = 0
          · rw [c4 h1]
            have : (y : ℚ) - 1 = 0 := by exact_mod_cast h1
            rw [this] at hout
            push_cast
            rw [show (x : ℚ) + 1 + 1 / 2 = x + 3 / 2 by ring]; exact hout
          · exact c5 (by omega)
        · intro Y h1 h2
          by_cases hY : Y = y
          · subst hY; exact ⟨x, List.mem_cons_self, h.row h1⟩
          · obtain ⟨X, hX, hF⟩ := c8 Y h1 (by omega)
            exact ⟨X, List.mem_cons_of_mem _ hX, hF⟩
    · obtain rfl : y = 0 := by have := h.y0; omega
      refine ⟨[], x, ?_, List.isChain_singleton _, rfl, ?_, fun _ => rfl, fun h => by omega, h.x0,
        h.xa, ?_⟩
      · intro σ draw s; rw [ellipseSide, if_neg (by omega)]; rfl
      · intro q hq; cases hq
      · intro Y h1 h2; omega

theorem tip_of_lt {a b X : Int} (hXa : X ≤ a) (hX0 : 0 ≤ X) (hlt : a < 8 * b ^ 2)
    (h : 0 ≤ ellF a b X (1 / 2)) : X = a := by
  by_contra hne
  have h1 : X ≤ a - 1 := by omega
  have hb1 : 1 ≤ b ^ 2 := by
    have := sq_nonneg b
    by_contra hc
    have : b ^ 2 = 0 := by omega
    omega
  have hI : a ^ 2 * (4 * b ^ 2 - 1) ≤ 4 * b ^ 2 * X ^ 2 := by
    unfold ellF at h
    have : ((a ^ 2 * (4 * b ^ 2 - 1) : Int) : ℚ) ≤ ((4 * b ^ 2 * X ^ 2 : Int) : ℚ) := by
      push_cast; linarith
    exact_mod_cast this
  have h2 : X ^ 2 ≤ (a - 1) ^ 2 := pow_le_pow_left₀ hX0 h1 2
  have h3 := mul_le_mul_of_nonneg_left h2 (show 0 ≤ 4 * b ^ 2 by omega)
  have h4 : 8 * b ^ 2 * a ≤ a ^ 2 + 4 * b ^ 2 := by nlinarith
  have ha1 : 1 ≤ a := by omega
  have h5 : a * (a + 1) ≤ a * (8 * b ^ 2) := mul_le_mul_of_nonneg_left (by omega) (by omega)
  have h6 : a ≤ 4 * b ^ 2 := by nlinarith
  have h7 : a * a ≤ a * (4 * b ^ 2) := mul_le_mul_of_nonneg_left h6 (by omega)
  have h8 : b ^ 2 * a ≤ b ^ 2 * 1 := by nlinarith
  have h9 : a ≤ 1 := le_of_mul_le_mul_left h8 (by omega)
  obtain rfl : a = 1 := by omega
  obtain rfl : X = 0 := by omega
  norm_num at hI
  omega

theorem not_tip {a b : Int} (ha : 1 ≤ a) (hle : 8 * b ^ 2 ≤ a) (hb : 1 ≤ b)
    (h : ellF a b (a - 1) (1 / 2) ≤ 0) : False := by
  unfold ellF at h
  have hI : 4 * b ^ 2 * (a - 1) ^ 2 ≤ a ^ 2 * (4 * b ^ 2 - 1) := by
    have : ((4 * b ^ 2 * (a - 1) ^ 2 : Int) : ℚ) ≤ ((a ^ 2 * (4 * b ^ 2 - 1) : Int) : ℚ) := by
      push_cast; linarith
    exact_mod_cast this
  have h1 : a * (8 * b ^ 2) ≤ a * a := mul_le_mul_of_nonneg_left hle (by omega)
  have h2 : 0 < b ^ 2 := by positivity
  nlinarith

/-- `draw_ellipse` renders the pixels of a quadrant, in order. -/
theorem drawEllipse_spec (a b : Int) (ha : 0 ≤ a) (hb : 0 ≤ b) (hne : a ≠ b) :
    ∃ L, Quadrant a b L ∧ ∀ {σ : Type u} (draw : Int → Int → σ → Option σ) (s : σ),
      drawEllipse draw a b s = forList L s fun q s => draw q.1 q.2 s := by
  have hb' : (0 : ℚ) ≤ b := by exact_mod_cast hb
  have ha2 := sq_nonneg (a : ℚ)
  have hlow : 1 ≤ b → ellF a b (0 : Int) (b - 1 / 2) ≤ 0 := by
    intro h
    have h1 : (1 : ℚ) ≤ b := by exact_mod_cast h
    have h2 := mul_nonneg ha2 (show (0 : ℚ) ≤ b - 1 / 4 by linarith)
    unfold ellF; push_cast
    linarith [show (a : ℚ) ^ 2 * (b - 1 / 2) ^ 2 - (a : ℚ) ^ 2 * (b : ℚ) ^ 2 =
      -((a : ℚ) ^ 2 * (b - 1 / 4)) by ring]
  have h0 : TopInv a b 0 b := by
    refine ⟨le_rfl, ha, hb, le_rfl, ?_, fun h => ?_, ?_⟩
    · have h2 := mul_nonneg ha2 (show (0 : ℚ) ≤ b + 1 / 4 by linarith)
      unfold ellF; push_cast
      linarith [show (a : ℚ) ^ 2 * (b + 1 / 2) ^ 2 - (a : ℚ) ^ 2 * (b : ℚ) ^ 2 =
        (a : ℚ) ^ 2 * (b + 1 / 4) by ring]
    · refine hlow ?_
      by_contra hc
      obtain rfl : b = 0 := by omega
      simp at h
    · rcases hb.eq_or_lt with h | h
      · exact Or.inr (Or.inr ⟨h.symm, rfl⟩)
      · exact Or.inl (hlow h)
  obtain ⟨L1, x1, y1, e1, c1, c2, c3, c4, c5, c6, c7, c8⟩ := top_spec.{u} a b (a.natAbs + 1) 0 b 0
    (2 * (a : ℚ) ^ 2 * b) ((b : ℚ) ^ 2 - (a : ℚ) ^ 2 * b + 1 / 4 * (a : ℚ) ^ 2) h0
    (by push_cast; ring) rfl (by unfold ellF; push_cast; ring) (by omega)
  have h1 : SideInv a b x1 y1 := ⟨c3.x0, c3.xa, c3.y0, c3.yb, Or.inl c3.hi, c3.near.2, c4⟩
  obtain ⟨L2, x2, e2, d1, d2, d3, d4, d5, d6, d7, d8⟩ := side_spec.{u} a b y1.toNat x1 y1
    (2 * (b : ℚ) ^ 2 * x1) (2 * (a : ℚ) ^ 2 * y1)
    ((b : ℚ) ^ 2 * ((x1 : ℚ) + 1 / 2) ^ 2 + (a : ℚ) ^ 2 * (((y1 - 1) ^ 2 : Int) : ℚ) -
      (a : ℚ) ^ 2 * (b : ℚ) ^ 2) h1 rfl rfl (by unfold ellF; push_cast; ring) (by omega)
  have hlast : ((0, b) :: (L1 ++ L2)).getLast? = some (x2, 0) := by
    rw [← List.cons_append, List.getLast?_append]
    cases L2 with
    | nil =>
      rw [List.getLast?_nil, Option.none_or, c2]
      exact d2
    | cons q L2 =>
      rw [List.getLast?_cons_cons] at d2
      rw [d2]; rfl
  refine ⟨(0, b) :: (L1 ++ L2), ⟨rfl, ?_, ⟨x2, hlast⟩, ?_, ?_, ?_, ?_⟩, ?_⟩
  · rw [← List.cons_append, List.isChain_append]
    refine ⟨c1, ?_, ?_⟩
    · exact d1.tail
    · intro p hp q hq
      rw [c2] at hp
      cases hp
      cases L2 with
      | nil => cases hq
      | cons r L2 =>
        cases hq
        exact (List.isChain_cons_cons.1 d1).1
  · intro q hq
    rcases List.mem_cons.1 hq with rfl | hq
    · exact ⟨le_rfl, ha, hb, le_rfl⟩
    · rcases List.mem_append.1 hq with hq | hq
      · have := c6 q hq; exact ⟨this.x0, this.xa, this.y0, this.yb⟩
      · have := d3 q hq; exact ⟨this.x0, this.xa, this.y0, this.yb⟩
  · intro q hq
    rcases List.mem_cons.1 hq with rfl | hq
    · exact h0.near
    · rcases List.mem_append.1 hq with hq | hq
      · exact (c6 q hq).near
      · exact ⟨(d3 q hq).hi, (d3 q hq).lo⟩
  · rw [hlast]
    have hiff : (some (x2, (0 : Int)) = some (a, 0)) ↔ x2 = a := by simp
    rw [hiff]
    have hy1b : y1 ≤ b := c5
    constructor
    · intro hx2
      by_contra hcon
      push Not at hcon
      rcases hb.eq_or_lt with hb0 | hb1
      · have e1 := c7 hb0.symm
        have e2 := d4 (by have := c3.y0; omega)
        omega
      · have hb2 : 0 < b ^ 2 := by positivity
        have ha1 : 1 ≤ a := by omega
        by_cases hy : y1 = 0
        · have e2 := d4 hy
          rcases c3.lo' with h | ⟨h1, h2⟩ | ⟨h1, h2⟩
          · refine not_tip ha1 hcon hb1 (le_trans ?_ h)
            rw [hy, ← e2, hx2]
            have hq : (1 : ℚ) ≤ a := by exact_mod_cast ha1
            have hm := ellF_mono (a := a) (b := b) (x := (a : ℚ) - 1) (y := 1 / 2) (x' := a) (y' := 1 / 2)
              (by linarith) (by norm_num) (by linarith) le_rfl
            refine le_trans hm (le_of_eq ?_)
            unfold ellF; push_cast; ring
          · rw [hy, ← e2, hx2] at h2
            refine not_tip ha1 hcon hb1 (le_trans (le_of_eq ?_) h2)
            unfold ellF; push_cast; ring
          · omega
        · have hy1 : 1 ≤ y1 := by have := c3.y0; omega
          have hs : a ^ 2 * y1 ≤ b ^ 2 * x1 := by exact_mod_cast c4
          have hxa := c3.xa
          have g1 : a ^ 2 * 1 ≤ a ^ 2 * y1 := mul_le_mul_of_nonneg_left hy1 (sq_nonneg a)
          have g2 : b ^ 2 * x1 ≤ b ^ 2 * a := mul_le_mul_of_nonneg_left hxa (sq_nonneg b)
          have g3 : a * a ≤ a * b ^ 2 := by nlinarith
          have g4 : a ≤ b ^ 2 := le_of_mul_le_mul_left g3 (by omega)
          omega
    · intro hlt
      by_cases hy : y1 = 0
      · have e2 := d4 hy
        have hh := c3.hi
        rw [hy, ← e2] at hh
        refine tip_of_lt d7 d6 hlt (le_trans hh (le_of_eq ?_))
        unfold ellF; push_cast; ring
      · have hF := d5 (by have := c3.y0; omega)
        have hb1 : 0 < b := by have := c3.y0; omega
        by_contra hne
        have g1 : x2 + 1 ≤ a := by omega
        have g2 : (x2 : ℚ) + 1 ≤ a := by exact_mod_cast g1
        have g3 : (0 : ℚ) ≤ x2 := by exact_mod_cast d6
        have g4 : (0 : ℚ) < b := by exact_mod_cast hb1
        have g5 : ((x2 : ℚ) + 1 / 2) ^ 2 < (a : ℚ) ^ 2 :=
          pow_lt_pow_left₀ (by linarith) (by linarith) (by norm_num)
        have g6 := mul_lt_mul_of_pos_left g5 (pow_pos g4 2)
        unfold ellF at hF
        linarith
  · intro y hy1 hyb
    by_cases h : y1 < y
    · obtain ⟨X, hX, hF⟩ := c8 y h hyb
      refine ⟨X, ?_, hF⟩
      rw [← List.cons_append]
      exact List.mem_append_left _ hX
    · obtain ⟨X, hX, hF⟩ := d8 y hy1 (by omega)
      refine ⟨X, ?_, hF⟩
      rw [← List.cons_append]
      rcases List.mem_cons.1 hX with hX | hX
      · rw [hX]
        exact List.mem_append_left _ (List.mem_of_getLast? c2)
      · exact List.mem_append_right _ hX
  · intro σ draw s
    unfold drawEllipse
    dsimp only
    rw [forList]
    congr 1
    funext s
    have q1 : ((a * a : Int) : ℚ) = (a : ℚ) ^ 2 := by push_cast; ring
    have q2 : ((b * b : Int) : ℚ) = (b : ℚ) ^ 2 := by push_cast; ring
    rw [q1, q2, e1 draw s, forList_append, Option.bind_map]
    congr 1
    funext s
    exact e2 draw s

/-! ### Hollow ellipses -/

/-- The points drawn for the pixels of a quadrant. -/
def quadPts (x0 y0 : Int) (L : List (Int × Int)) : List (Int × Int) :=
  L.flatMap fun q => [(x0 + q.1, y0 + q.2), (x0 - q.1, y0 + q.2), (x0 + q.1, y0 - q.2),
    (x0 - q.1, y0 - q.2)]

theorem quadPts_mem {a b : Int} {L : List (Int × Int)}
    (hL : ∀ q ∈ L, 0 ≤ q.1 ∧ q.1 ≤ a ∧ 0 ≤ q.2 ∧ q.2 ≤ b) (x0 y0 : Int) (q : Int × Int) : q ∈ quadPts x0 y0 L ↔ (|q.1 - x0|, |q.2 - y0|) ∈ L := by
  obtain ⟨u, v⟩ := q
  unfold quadPts
  rw [List.mem_flatMap]
  dsimp only
  constructor
  · rintro ⟨⟨x, y⟩, hq, h⟩
    have := hL _ hq
    dsimp only at this
    have e : |u - x0| = x ∧ |v - y0| = y := by
      simp only [List.mem_cons, Prod.mk.injEq, List.not_mem_nil, or_false] at h
      rcases abs_cases (u - x0) with ⟨h1, h2⟩ | ⟨h1, h2⟩ <;>
      rcases abs_cases (v - y0) with ⟨h3, h4⟩ | ⟨h3, h4⟩ <;> rw [h1, h3] <;> omega
    rw [e.1, e.2]; exact hq
  · intro h
    refine ⟨_, h, ?_⟩
    simp only [List.mem_cons, Prod.mk.injEq, List.not_mem_nil, or_false]
    rcases abs_cases (u - x0) with ⟨h1, h2⟩ | ⟨h1, h2⟩ <;>
    rcases abs_cases (v - y0) with ⟨h3, h4⟩ | ⟨h3, h4⟩ <;> rw [h1, h3] <;> omega

/-- **C97.** For every image, centre and pair of different non-negative radii, drawing a hollow
ellipse terminates without failure; the pixels coloured are exactly the reflections in both axes of the pixels
of a quadrant path from the top of the ellipse to its horizontal axis (see `Quadrant`). -/
theorem C97_hollow_partial {α : Type u} (im : Image α) (x0 y0 a b : Int) (ha : 0 ≤ a) (hb : 0 ≤ b)
    (hne : a ≠ b) (c : α) :
    ∃ L out, Quadrant a b L ∧ drawHollowEllipse overwrite im (x0, y0) a b c = some out ∧
      out.w = im.w ∧ out.h = im.h ∧ ∀ x y : Nat, im.InB x y →
        ((|(x : Int) - x0|, |(y : Int) - y0|) ∈ L → out.px x y = c) ∧
        ((|(x : Int) - x0|, |(y : Int) - y0|) ∉ L → out.px x y = im.px x y) := by
  obtain ⟨L, hL, e⟩ := drawEllipse_spec.{u} a b ha hb hne
  obtain ⟨o, h1, h2, h3, h4⟩ := drawList_overwrite im c (quadPts x0 y0 L)
  refine ⟨L, o, hL, ?_, h2, h3, fun x y hxy => ⟨fun h => ?_, fun h => ?_⟩⟩
  · unfold drawHollowEllipse
    rw [if_neg hne]
    dsimp only
    rw [e, ← h1, quadPts, forList_flatMap]
    congr 1
    funext q im
    simp only [forList]
    cases h : drawIfInBounds overwrite im (x0 + q.1) (y0 + q.2) c <;> simp
  · rw [h4 x y hxy, if_pos ((quadPts_mem hL.box x0 y0 _).2 h)]
  · rw [h4 x y hxy, if_neg (fun h' => h ((quadPts_mem hL.box x0 y0 _).1 h'))]

/-- **C97** for equal radii: the hollow circle of C45 is drawn. -/
theorem C97_circle {α : Type _} (op : α → α → α) (im : Image α) (center : Int × Int) (r : Int)
    (c : α) : drawHollowEllipse op im center r r c = drawHollowCircle op im center r c := by
  unfold drawHollowEllipse; rw [if_pos rfl]

/-- **C97** is false for flat ellipses as far as the tips are concerned: with radii 8 and 1 the
pixels `(±8, 0)`, which lie on the ellipse, are not drawn. -/
theorem C97_negation : ((drawHollowEllipse overwrite (Image.new 17 3 0) (8, 1) 8 1 1).map
    fun out => (out.px 0 1, out.px 1 1, out.px 15 1, out.px 16 1)) = some (0, 1, 1, 0) ∧
    ellF 8 1 8 0 = 0 ∧ ellF 8 1 (-8) 0 = 0 := by
  refine ⟨by decide +kernel, ?_, ?_⟩ <;> norm_num [ellF]

-- Radii 3 and 2 on a 7x5 image.
example : ((drawHollowEllipse overwrite (Image.new 7 5 0) (3, 2) 3 2 1).map Image.rows) =
    some [[0, 0, 1, 1, 1, 0, 0], [0, 1, 0, 0, 0, 1, 0], [1, 0, 0, 0, 0, 0, 1],
      [0, 1, 0, 0, 0, 1, 0], [0, 0, 1, 1, 1, 0, 0]] := by decide +kernel

/-! ### Filled ellipses -/

/-- The points drawn for the rows of a quadrant. -/
def spanPts (x0 y0 : Int) (L : List (Int × Int)) : List (Int × Int) :=
  L.flatMap fun q => hline (x0 - q.1) (x0 + q.1) (y0 + q.2) ++ hline (x0 - q.1) (x0 + q.1) (y0 - q.2)

theorem spanPts_mem {a b : Int} {L : List (Int × Int)}
    (hL : ∀ q ∈ L, 0 ≤ q.1 ∧ q.1 ≤ a ∧ 0 ≤ q.2 ∧ q.2 ≤ b) (x0 y0 : Int) (q : Int × Int) : q ∈ spanPts x0 y0 L ↔ ∃ x, (x, |q.2 - y0|) ∈ L ∧ |q.1 - x0| ≤ x := by
  obtain ⟨u, v⟩ := q
  unfold spanPts
  rw [List.mem_flatMap]
  dsimp only
  constructor
  · rintro ⟨⟨x, y⟩, hq, h⟩
    have := hL _ hq
    dsimp only at this h
    unfold hline at h
    rw [List.mem_append, mem_horizontal _ _ _ (by omega), mem_horizontal _ _ _ (by omega)] at h
    dsimp only at h
    refine ⟨x, ?_, by rw [abs_le]; omega⟩
    have e : |v - y0| = y := by
      rcases abs_cases (v - y0) with ⟨h3, h4⟩ | ⟨h3, h4⟩ <;> rw [h3] <;> omega
    rw [e]; exact hq
  · rintro ⟨x, hx, h⟩
    have := hL _ hx
    dsimp only at this
    rw [abs_le] at h
    refine ⟨_, hx, ?_⟩
    unfold hline
    rw [List.mem_append, mem_horizontal _ _ _ (by omega), mem_horizontal _ _ _ (by omega)]
    dsimp only
    rcases abs_cases (v - y0) with ⟨h3, h4⟩ | ⟨h3, h4⟩ <;> rw [h3] <;> omega

/-- **C98.** For every image, centre and pair of different non-negative radii, drawing a filled
ellipse terminates without failure and colours exactly the pixels lying between (inclusive) two
mirror-image outline pixels of their row, where the outline is a quadrant path as in C97.
Consequently every pixel strictly inside the ideal ellipse is coloured, except possibly near the
tips of the row through the centre when `a ≥ 8 b²`. -/
theorem C98_filled_partial {α : Type u} (im : Image α) (x0 y0 a b : Int) (ha : 0 ≤ a) (hb : 0 ≤ b)
    (hne : a ≠ b) (c : α) :
    ∃ L out, Quadrant a b L ∧ drawFilledEllipse overwrite im (x0, y0) a b c = some out ∧
      out.w = im.w ∧ out.h = im.h ∧ ∀ x y : Nat, im.InB x y →
        ((∃ X, (X, |(y : Int) - y0|) ∈ L ∧ |(x : Int) - x0| ≤ X) → out.px x y = c) ∧
        ((∀ X, (X, |(y : Int) - y0|) ∈ L → X < |(x : Int) - x0|) → out.px x y = im.px x y) ∧
        (ellF a b ((x : Int) - x0 : Int) ((y : Int) - y0 : Int) < 0 →
          (y : Int) ≠ y0 ∨ a < 8 * b ^ 2 → out.px x y = c) := by
  obtain ⟨L, hL, e⟩ := drawEllipse_spec.{u} a b ha hb hne
  obtain ⟨o, h1, h2, h3, h4⟩ := drawList_overwrite im c (spanPts x0 y0 L)
  have key : ∀ x y : Nat, im.InB x y → (∃ X, (X, |(y : Int) - y0|) ∈ L ∧ |(x : Int) - x0| ≤ X) →
      o.px x y = c := by
    intro x y hxy h
    rw [h4 x y hxy, if_pos ((spanPts_mem hL.box x0 y0 _).2 h)]
  refine ⟨L, o, hL, ?_, h2, h3, fun x y hxy => ⟨key x y hxy, fun h => ?_, fun hF hor => ?_⟩⟩
  · unfold drawFilledEllipse
    rw [if_neg hne]
    dsimp only
    rw [e, ← h1, spanPts, forList_flatMap]
    congr 1
    funext q im
    simp only [forList_append, drawLineInt_eq, hline]
  · rw [h4 x y hxy, if_neg]
    intro h'
    obtain ⟨X, hX, hle⟩ := (spanPts_mem hL.box x0 y0 _).1 h'
    have h5 := h X hX
    dsimp only at hle
    omega
  · refine key x y hxy ?_
    have hF' : ellF a b (|(x : Int) - x0| : Int) (|(y : Int) - y0| : Int) < 0 := by
      unfold ellF at hF ⊢
      push_cast at hF ⊢
      rw [sq_abs, sq_abs]
      exact hF
    have hor' : |(y : Int) - y0| ≠ 0 ∨ a < 8 * b ^ 2 := by
      rcases hor with h | h
      · left; rw [Ne, abs_eq_zero]; omega
      · exact Or.inr h
    have hy0 := abs_nonneg ((y : Int) - y0)
    have hx0 := abs_nonneg ((x : Int) - x0)
    generalize |(y : Int) - y0| = v at hF' hor' hy0 ⊢
    generalize |(x : Int) - x0| = u at hF' hx0 ⊢
    have hu : (0 : ℚ) ≤ u := by exact_mod_cast hx0
    have hv : (0 : ℚ) ≤ v := by exact_mod_cast hy0
    have haq : (0 : ℚ) ≤ a := by exact_mod_cast ha
    have hbq : (0 : ℚ) ≤ b := by exact_mod_cast hb
    by_cases hv0 : v = 0
    · subst hv0
      have hlt := hor'.resolve_left (fun h => h rfl)
      refine ⟨a, List.mem_of_getLast? (hL.tip.2 hlt), ?_⟩
      by_contra hc
      have h5 : (a : ℚ) ≤ u := by exact_mod_cast (show a ≤ u by omega)
      have h6 := mul_le_mul_of_nonneg_left (pow_le_pow_left₀ haq h5 2) (sq_nonneg (b : ℚ))
      unfold ellF at hF'
      push_cast at hF'
      linarith
    · have hvb : v ≤ b := by
        by_contra hc
        have h5 : (b : ℚ) ≤ v := by exact_mod_cast (show b ≤ v by omega)
        have h6 := mul_le_mul_of_nonneg_left (pow_le_pow_left₀ hbq h5 2) (sq_nonneg (a : ℚ))
        have h7 := mul_nonneg (sq_nonneg (b : ℚ)) (sq_nonneg (u : ℚ))
        unfold ellF at hF'
        linarith
      obtain ⟨X, hX, hFX⟩ := hL.row v (by omega) hvb
      refine ⟨X, hX, ?_⟩
      by_contra hc
      have hX0 := (hL.box _ hX).1
      have h5 : (X : ℚ) + 1 ≤ u := by exact_mod_cast (show X + 1 ≤ u by omega)
      have h6 : (0 : ℚ) ≤ X := by exact_mod_cast hX0
      have := ellF_mono (a := a) (b := b) (show (0 : ℚ) ≤ X + 1 by linarith) hv h5 le_rfl
      linarith

/-- **C98** for equal radii: the filled circle of C46 is drawn. -/
theorem C98_circle {α : Type _} (op : α → α → α) (im : Image α) (center : Int × Int) (r : Int)
    (c : α) : drawFilledEllipse op im center r r c = drawFilledCircle op im center r c := by
  unfold drawFilledEllipse; rw [if_pos rfl]

/-- Why the exception in C98 is needed: with radii 15 and 1 the pixels at offset `(±14, 0)` are strictly
inside the ellipse and are not coloured. -/
theorem C98_negation : ((drawFilledEllipse overwrite (Image.new 31 3 0) (15, 1) 15 1 1).map
    fun out => (out.px 1 1, out.px 2 1, out.px 28 1, out.px 29 1)) = some (0, 1, 1, 0) ∧
    ellF 15 1 14 0 < 0 ∧ ellF 15 1 (-14) 0 < 0 := by
  refine ⟨by decide +kernel, ?_, ?_⟩ <;> norm_num [ellF]

-- Radii 2 and 3, partly outside a 4x7 image.
example : ((drawFilledEllipse overwrite (Image.new 4 7 0) (1, 3) 2 3 1).map Image.rows) =
    some [[1, 1, 1, 0], [1, 1, 1, 1], [1, 1, 1, 1], [1, 1, 1, 1], [1, 1, 1, 1], [1, 1, 1, 1],
      [1, 1, 1, 0]] := by decide +kernel

end Verif.Drawing
