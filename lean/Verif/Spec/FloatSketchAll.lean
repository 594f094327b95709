import Verif.Spec.FloatSketch
import Verif.Spec.TuckerSketch

/-!
# The sketch with absolute values everywhere, for all formats

The same contractions as `Leaf.sketchOf` (`Spec/TuckerSketch.lean`), with `|X|` in the place of the
tensor and the matrices of `|D|` in the place of those of the DRMs.
-/

namespace TTS

/-- The sketch of one tensor of any format, with absolute values everywhere. -/
def Leaf.absSketchOf (env : Env ℝ) (l r : DRM ℝ) (lr rr : List ℕ) : Leaf ℝ → Container ℝ
  | .dense X => TTS.sketchOf X.shape (fun i => |X.get i|) (l.absLeftMats env) (r.absRightMatsDense env) lr rr
  | .tucker X => X.abs.sketchOf (X.abs.absorbLeft (l.absLeftMats env))
      ((X.abs.absorbRight (r.absRightMats env)).misread X.rank) lr rr
  | t => TTS.sketchOf t.shape t.abs.toNumpy.get (l.absLeftMats env) (r.absRightMats env) lr rr

end TTS
