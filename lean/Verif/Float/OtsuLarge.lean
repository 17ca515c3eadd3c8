import Verif.Float.Otsu
import Verif.Contrast.OtsuMachine
/- Property C193 in double precision. -/
namespace Verif.Float
open Verif.Stats Verif.Contrast

/-- **C193, negation** in double precision: the release build returns level 0 for `bands`, see `C193_negation`. -/
theorem C193_negation64 : otsuLevel32With true rnd64 otsuVal64 bands = none ∧
    otsuLevel32With false rnd64 otsuVal64 bands = some 0 := by
  refine ⟨?_, ?_⟩
  · refine C193_panics _ _ bands bands_is8 fun h => ?_
    have := h.2 255 (by norm_num)
    rw [bands_hist] at this
    revert this
    decide
  · obtain ⟨hist, e, hh⟩ := C190_histogram_fits false 1 (gray bands) (is8c_gray bands_is8)
      (fun c v _ => lt_of_le_of_lt (countPx_le _ _) (by show 4105 * 8315 < 2 ^ 32; norm_num))
    have heq : hist 0 = bandsHist := funext fun v => by
      rw [hh 0 v (by omega)]; exact bands_hist v
    unfold otsuLevel32With
    rw [e, Option.bind_some, show bands.w = 4105 from rfl, show bands.h = 8315 from rfl, heq]
    decide +kernel

end Verif.Float
