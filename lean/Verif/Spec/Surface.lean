import Verif.Spec.Calculus

/-
Operations on electrodes and positions that appear in the symmetry properties.
-/
namespace Electrode.Spec

/-- a point moved sideways by `d` -/
def move2 (d v : V2) : V2 := ⟨v.x + d.x, v.y + d.y⟩
def move3 (d : V2) (p : V3) : V3 := ⟨p.x + d.x, p.y + d.y, p.z⟩

/-- the electrode moved sideways by `d` -/
def moveShape (d : V2) : Shape → Shape
  | .cover h => .cover h
  | .points ps as h n => .points (ps.map (move2 d)) as h n
  | .polygons polys h n => .polygons (polys.map (List.map (move2 d))) h n
  | .mesh ps es pg pots h n => .mesh (ps.map (move2 d)) es pg pots h n
  | .grid data origin spacing => .grid data (move3 d origin) spacing

/-- scaled by `s` about the origin -/
def scale2 (s : ℝ) (v : V2) : V2 := ⟨s * v.x, s * v.y⟩
def scale3 (s : ℝ) (p : V3) : V3 := ⟨s * p.x, s * p.y, s * p.z⟩

/-- reflected in the electrode plane -/
def reflect (p : V3) : V3 := ⟨p.x, p.y, -p.z⟩

/-- electrodes in or above the plane `z = 0`, all except sampled grids -/
def isAnalytic : Shape → Prop
  | .grid .. => False
  | _ => True

end Electrode.Spec
