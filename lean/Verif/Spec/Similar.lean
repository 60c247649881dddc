import Verif.Spec.Surface
import Verif.Model.System

/-
Traps of another size, or the same trap measured in another unit of length.
-/
namespace Electrode.Spec

/-- the shape of an electrode enlarged by `s` (grid electrodes are data, they stay) -/
def enlarge (s : ℝ) : Shape → Shape
  | .cover h => .cover (s * h)
  | .points ps as h n => .points (ps.map (scale2 s)) (as.map (s ^ 2 * ·)) (s * h) n
  | .polygons paths h n => .polygons (paths.map (List.map (scale2 s))) (s * h) n
  | .mesh ps es pg pots h n => .mesh (ps.map (scale2 s)) es pg pots (s * h) n
  | .grid data origin spacing => .grid data origin spacing

/-- all electrodes enlarged by `s`, the rf voltages multiplied by `j`, the dc voltages by `k` -/
def similar (s j k : ℝ) (els : List Elec) : List Elec := els.map fun e => ⟨e.name, k * e.dc, j * e.rf, enlarge s e.shape⟩

/-- no grid electrodes -/
def gridFree (els : List Elec) : Prop := ∀ e ∈ els, ∀ data origin spacing, e.shape ≠ .grid data origin spacing

end Electrode.Spec
