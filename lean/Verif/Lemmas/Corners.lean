import Verif.Lemmas.ShapeError
import Verif.Props.Area

/-
Moving the corners of a polygon changes what it covers by thin triangles.
-/
namespace Electrode.ShapeErr
open Spec Real Set MeasureTheory PolyInt

/-- twice the signed area of a triangle -/
def tri2 (a b c : V2) : ℝ := (b.x - a.x) * (c.y - a.y) - (b.y - a.y) * (c.x - a.x)

/-- how the boundary of a triangle winds around a point -/
noncomputable def triW (q : ℝ × ℝ) (a b c : V2) : ℤ := crossing q a b + crossing q b c + crossing q c a

theorem triW_winding (q : ℝ × ℝ) (a b c : V2) : winding [a, b, c] q = triW q a b c := by
  simp [winding, triW, List.rotate, add_assoc]

theorem down {q : ℝ × ℝ} {a b c : V2} (hD : 0 ≤ tri2 a b c) (h : crossing q a b = -1) : crossing q b c + crossing q c a = 1 := by
  have hab : b.y ≤ q.2 ∧ q.2 < a.y ∧ (b.x - a.x) * (q.2 - a.y) - (b.y - a.y) * (q.1 - a.x) < 0 := by
    unfold crossing at h
    split_ifs at h with h1 h2
    exact h2
  obtain ⟨h1, h2, h3⟩ := hab
  unfold tri2 at hD
  set A := (b.x - a.x) * (q.2 - a.y) - (b.y - a.y) * (q.1 - a.x) with hA
  set B := (c.x - b.x) * (q.2 - b.y) - (c.y - b.y) * (q.1 - b.x) with hB
  set C := (a.x - c.x) * (q.2 - c.y) - (a.y - c.y) * (q.1 - c.x) with hC
  have sum : A + B + C = (b.x - a.x) * (c.y - a.y) - (b.y - a.y) * (c.x - a.x) := by rw [hA, hB, hC]; ring
  have bar : B * (a.y - q.2) + C * (b.y - q.2) + A * (c.y - q.2) = 0 := by rw [hA, hB, hC]; ring
  rw [← sum] at hD
  by_cases hc : c.y ≤ q.2
  · have hC0 : 0 < C := by
      by_contra hn
      have hn : C ≤ 0 := not_lt.1 hn
      have e1 : 0 ≤ C * (b.y - q.2) := mul_nonneg_of_nonpos_of_nonpos hn (by linarith)
      have e2 : 0 ≤ A * (c.y - q.2) := mul_nonneg_of_nonpos_of_nonpos h3.le (by linarith)
      have e3 : B ≤ 0 := by
        by_contra hb
        have := mul_pos (not_le.1 hb) (sub_pos.2 h2)
        linarith
      linarith
    have x1 : crossing q b c = 0 := by
      unfold crossing
      rw [if_neg (fun h => by linarith [h.2.1]), if_neg (fun h => by linarith [h.2.1])]
    have x2 : crossing q c a = 1 := by
      unfold crossing
      rw [if_pos ⟨hc, h2, hC0⟩]
    rw [x1, x2]; rfl
  · have hc : q.2 < c.y := not_le.1 hc
    have hB0 : 0 < B := by
      by_contra hn
      have hn : B ≤ 0 := not_lt.1 hn
      have e1 : B * (a.y - q.2) ≤ 0 := mul_nonpos_of_nonpos_of_nonneg hn (by linarith)
      have e2 : A * (c.y - q.2) < 0 := mul_neg_of_neg_of_pos h3 (by linarith)
      have e3 : 0 < C * (b.y - q.2) := by linarith
      have e4 : C < 0 := by
        by_contra hb
        have := mul_nonpos_of_nonneg_of_nonpos (not_lt.1 hb) (by linarith : b.y - q.2 ≤ 0)
        linarith
      linarith
    have x1 : crossing q b c = 1 := by
      unfold crossing
      rw [if_pos ⟨h1, hc, hB0⟩]
    have x2 : crossing q c a = 0 := by
      unfold crossing
      rw [if_neg (fun h => by linarith [h.1]), if_neg (fun h => by linarith [h.1])]
    rw [x1, x2]; rfl

theorem crossing_cases (q : ℝ × ℝ) (a b : V2) : crossing q a b = -1 ∨ 0 ≤ crossing q a b := by
  unfold crossing
  split_ifs <;> simp

theorem tri2_turn (a b c : V2) : tri2 b c a = tri2 a b c := by unfold tri2; ring

theorem triW_nonneg (q : ℝ × ℝ) {a b c : V2} (hD : 0 ≤ tri2 a b c) : 0 ≤ triW q a b c := by
  unfold triW
  rcases crossing_cases q a b with h1 | h1
  · have := down hD h1; omega
  rcases crossing_cases q b c with h2 | h2
  · have := down (by rw [tri2_turn]; exact hD) h2; omega
  rcases crossing_cases q c a with h3 | h3
  · have := down (by rw [← tri2_turn]; exact hD) h3; omega
  omega

theorem triW_swap (q : ℝ × ℝ) (a b c : V2) : triW q a c b = -triW q a b c := by
  unfold triW
  rw [crossing_swap q b c, crossing_swap q a b, crossing_swap q c a]
  ring

theorem tri2_swap (a b c : V2) : tri2 a c b = -tri2 a b c := by unfold tri2; ring

/-- the area of a triangle -/
theorem triW_abs (a b c : V2) : Integrable (fun q : ℝ × ℝ => |(triW q a b c : ℝ)|) ∧
    ∫ q : ℝ × ℝ, |(triW q a b c : ℝ)| = |tri2 a b c| / 2 := by
  have pos : ∀ a b c : V2, 0 ≤ tri2 a b c → Integrable (fun q : ℝ × ℝ => |(triW q a b c : ℝ)|) ∧
      ∫ q : ℝ × ℝ, |(triW q a b c : ℝ)| = |tri2 a b c| / 2 := by
    intro a b c h
    have e : (fun q : ℝ × ℝ => |(triW q a b c : ℝ)|) = fun q => (winding [a, b, c] q : ℝ) := by
      funext q
      rw [triW_winding, abs_of_nonneg (by exact_mod_cast triW_nonneg q h)]
    obtain ⟨h1, h2⟩ := c10_area_region [a, b, c]
    rw [e]
    refine ⟨h1, ?_⟩
    rw [← h2, (c10_triangle a b c).1, abs_of_nonneg h]
    unfold tri2
    ring
  rcases le_total 0 (tri2 a b c) with h | h
  · exact pos a b c h
  · have := pos a c b (by rw [tri2_swap]; linarith)
    have e : ∀ q, triW q a c b = -triW q a b c := fun q => triW_swap q a b c
    rw [tri2_swap a b c] at this
    simpa only [e, Int.cast_neg, abs_neg] using this

/-! ### Two closed paths with corners in pairs -/

/-- the distance of two points of the plane -/
noncomputable def gap (a b : V2) : ℝ := √((a.x - b.x) ^ 2 + (a.y - b.y) ^ 2)

theorem cross_le (x y u w : ℝ) : |x * w - y * u| ≤ √(x ^ 2 + y ^ 2) * √(u ^ 2 + w ^ 2) := by
  rw [← Real.sqrt_mul (by positivity)]
  refine Real.abs_le_sqrt ?_
  nlinarith [sq_nonneg (x * u + y * w)]

theorem tri_le1 (a b b' : V2) : |tri2 a b b'| ≤ gap a b * gap b b' := by
  have := cross_le (a.x - b.x) (a.y - b.y) (b.x - b'.x) (b.y - b'.y)
  refine (le_of_eq ?_).trans this
  unfold tri2
  congr 1
  ring

theorem tri_le2 (a a' b' : V2) : |tri2 a b' a'| ≤ gap a' b' * gap a a' := by
  have := cross_le (a'.x - b'.x) (a'.y - b'.y) (a.x - a'.x) (a.y - a'.y)
  refine (le_of_eq ?_).trans this
  unfold tri2
  congr 1
  ring

/-- the strip between two sides -/
noncomputable def strip (q : ℝ × ℝ) (u w : V2 × V2) : ℤ := triW q u.1 w.1 w.2 + triW q u.1 w.2 u.2

theorem strip_eq (q : ℝ × ℝ) (u w : V2 × V2) :
    crossing q u.2 w.2 - crossing q u.1 w.1 = (crossing q w.1 w.2 - crossing q u.1 u.2) + -strip q u w := by
  unfold strip triW
  rw [crossing_swap q u.1 w.2, crossing_swap q w.2 u.2, crossing_swap q u.1 u.2, crossing_swap q u.2 w.2]
  ring

theorem strip_int (u w : V2 × V2) : Integrable (fun q : ℝ × ℝ => |(strip q u w : ℝ)|) ∧
    ∫ q : ℝ × ℝ, |(strip q u w : ℝ)| ≤ (|tri2 u.1 w.1 w.2| + |tri2 u.1 w.2 u.2|) / 2 := by
  obtain ⟨i1, e1⟩ := triW_abs u.1 w.1 w.2
  obtain ⟨i2, e2⟩ := triW_abs u.1 w.2 u.2
  have hle : ∀ q : ℝ × ℝ, |(strip q u w : ℝ)| ≤ |(triW q u.1 w.1 w.2 : ℝ)| + |(triW q u.1 w.2 u.2 : ℝ)| := fun q => by
    unfold strip
    push_cast
    exact abs_add_le _ _
  have hm : Measurable fun q : ℝ × ℝ => |(strip q u w : ℝ)| := by
    have := fun a b => crossing_measurable a b
    unfold strip triW
    push_cast
    fun_prop
  have hi : Integrable fun q : ℝ × ℝ => |(strip q u w : ℝ)| := (i1.add i2).mono' hm.aestronglyMeasurable
    (Filter.Eventually.of_forall fun q => by rw [Real.norm_eq_abs, abs_abs]; exact hle q)
  refine ⟨hi, ?_⟩
  have := integral_mono hi (i1.add i2) hle
  simp only [Pi.add_apply] at this
  rw [integral_add i1 i2, e1, e2] at this
  linarith

theorem winding_strip (q : ℝ × ℝ) (l : List (V2 × V2)) :
    winding (l.map Prod.snd) q - winding (l.map Prod.fst) q = -cycSum (strip q) l := by
  rw [winding_cyc, winding_cyc, cycSum_map, cycSum_map, sub_eq_iff_eq_add]
  have h1 : cycSum (fun u w : V2 × V2 => crossing q u.2 w.2) l
      = cycSum (fun u w : V2 × V2 => ((crossing q w.1 w.2 - crossing q u.1 u.2) + -strip q u w) + crossing q u.1 w.1) l := by
    congr 1
    funext u w
    have := strip_eq q u w
    omega
  rw [h1, cycSum_add, cycSum_add, cycSum_tele (fun u : V2 × V2 => crossing q u.1 u.2)]
  have h2 := cycSum_hom (-AddMonoidHom.id ℤ) (strip q) l
  simp only [AddMonoidHom.neg_apply, AddMonoidHom.id_apply] at h2
  rw [h2, zero_add]

theorem chain_abs {α : Type*} (f g : α → α → ℝ) (h : ∀ a b, |f a b| ≤ g a b) (a : α) (l : List α) : |chain f a l| ≤ chain g a l := by
  induction l generalizing a with
  | nil => simp [chain]
  | cons b l ih => exact (abs_add_le _ _).trans (add_le_add (h a b) (ih b))

theorem cyc_abs {α : Type*} (f g : α → α → ℝ) (h : ∀ a b, |f a b| ≤ g a b) (l : List α) : |cycSum f l| ≤ cycSum g l := by
  cases l with
  | nil => simp [cycSum]
  | cons a t => exact chain_abs f g h a _

theorem chain_int {α : Type*} (f : ℝ × ℝ → α → α → ℝ) (B : α → α → ℝ) (P : α → Prop)
    (h : ∀ a b, P a → P b → Integrable (fun q => f q a b) ∧ ∫ q, f q a b ≤ B a b) (a : α) (l : List α) (ha : P a) (hl : ∀ b ∈ l, P b) :
    Integrable (fun q => chain (f q) a l) ∧ ∫ q, chain (f q) a l ≤ chain B a l := by
  induction l generalizing a with
  | nil => simp [chain]
  | cons b l ih =>
    have hb := hl b (by simp)
    obtain ⟨i1, e1⟩ := h a b ha hb
    obtain ⟨i2, e2⟩ := ih b hb fun c hc => hl c (by simp [hc])
    simp only [chain]
    refine ⟨i1.add i2, ?_⟩
    rw [integral_add i1 i2]
    exact add_le_add e1 e2

theorem cyc_int {α : Type*} (f : ℝ × ℝ → α → α → ℝ) (B : α → α → ℝ) (P : α → Prop)
    (h : ∀ a b, P a → P b → Integrable (fun q => f q a b) ∧ ∫ q, f q a b ≤ B a b) (l : List α) (hl : ∀ b ∈ l, P b) :
    Integrable (fun q => cycSum (f q) l) ∧ ∫ q, cycSum (f q) l ≤ cycSum B l := by
  cases l with
  | nil => simp [cycSum]
  | cons a t =>
    refine chain_int f B P h a _ (hl a (by simp)) fun b hb => ?_
    simp only [List.mem_append, List.mem_singleton] at hb
    rcases hb with hb | rfl
    · exact hl b (by simp [hb])
    · exact hl b (by simp)

/-- how much the covered area changes -/
theorem winding_corners (δ : ℝ) (l : List (V2 × V2)) (hl : ∀ u ∈ l, gap u.1 u.2 ≤ δ) :
    ∫ q : ℝ × ℝ, |(winding (l.map Prod.snd) q : ℝ) - winding (l.map Prod.fst) q|
      ≤ δ / 2 * (cycSum gap (l.map Prod.fst) + cycSum gap (l.map Prod.snd)) := by
  obtain ⟨hi, he⟩ := cyc_int (fun q u w => |(strip q u w : ℝ)|) (fun u w => δ / 2 * (gap u.1 w.1 + gap u.2 w.2)) (fun u => gap u.1 u.2 ≤ δ)
    (fun u w hu hw => ⟨(strip_int u w).1, (strip_int u w).2.trans (by
      have g : ∀ a b, 0 ≤ gap a b := fun a b => Real.sqrt_nonneg _
      have h1 := (tri_le1 u.1 w.1 w.2).trans (mul_le_mul_of_nonneg_left hw (g _ _))
      have h2 := (tri_le2 u.1 u.2 w.2).trans (mul_le_mul_of_nonneg_left hu (g _ _))
      linarith)⟩) l hl
  have hle : ∀ q : ℝ × ℝ, |(winding (l.map Prod.snd) q : ℝ) - winding (l.map Prod.fst) q| ≤ cycSum (fun u w => |(strip q u w : ℝ)|) l := by
    intro q
    have h1 : (winding (l.map Prod.snd) q : ℝ) - winding (l.map Prod.fst) q = -cycSum (fun u w => (strip q u w : ℝ)) l := by
      have h2 := cycSum_hom (Int.castAddHom ℝ) (strip q) l
      simp only [Int.coe_castAddHom] at h2
      rw [h2]
      exact_mod_cast winding_strip q l
    rw [h1, abs_neg]
    exact cyc_abs _ _ (fun _ _ => le_rfl) l
  have hi' : Integrable fun q : ℝ × ℝ => |(winding (l.map Prod.snd) q : ℝ) - winding (l.map Prod.fst) q| :=
    ((c10_area_region _).1.sub (c10_area_region _).1).abs
  refine (integral_mono hi' hi hle).trans (he.trans (le_of_eq ?_))
  rw [cycSum_map, cycSum_map, ← cycSum_add]
  have h3 := cycSum_hom (AddMonoidHom.mulLeft (δ / 2)) (fun u w : V2 × V2 => gap u.1 w.1 + gap u.2 w.2) l
  simpa using h3

theorem covered_corners (δ : ℝ) (polys polys' : List (List V2))
    (h : List.Forall₂ (fun a b => List.Forall₂ (fun u w => gap u w ≤ δ) a b) polys polys') :
    ∫ q : ℝ × ℝ, |(covered polys' q : ℝ) - covered polys q|
      ≤ δ / 2 * ((polys.map (cycSum gap)).sum + (polys'.map (cycSum gap)).sum) := by
  induction h with
  | nil => simp [covered]
  | @cons a b l m hab _ ih =>
    have hpair : ∀ (a b : List V2), List.Forall₂ (fun u w => gap u w ≤ δ) a b → (a.zip b).map Prod.fst = a ∧ (a.zip b).map Prod.snd = b ∧
        ∀ u ∈ a.zip b, gap u.1 u.2 ≤ δ := by
      intro a b h
      induction h with
      | nil => simp
      | cons h0 _ ih =>
        obtain ⟨h1, h2, h3⟩ := ih
        refine ⟨by simp [h1], by simp [h2], ?_⟩
        intro u hu
        rw [List.zip_cons_cons, List.mem_cons] at hu
        rcases hu with rfl | hu
        · exact h0
        · exact h3 u hu
    obtain ⟨h1, h2, h3⟩ := hpair a b hab
    have hw := winding_corners δ (a.zip b) h3
    rw [h1, h2] at hw
    have ia : Integrable fun q : ℝ × ℝ => |(winding b q : ℝ) - winding a q| := ((c10_area_region _).1.sub (c10_area_region _).1).abs
    have il : Integrable fun q : ℝ × ℝ => |(covered m q : ℝ) - covered l q| :=
      ((Cover.covered_integrable' _).sub (Cover.covered_integrable' _)).abs
    have ic : Integrable fun q : ℝ × ℝ => |(covered (b :: m) q : ℝ) - covered (a :: l) q| :=
      ((Cover.covered_integrable' _).sub (Cover.covered_integrable' _)).abs
    have hle : ∀ q : ℝ × ℝ, |(covered (b :: m) q : ℝ) - covered (a :: l) q|
        ≤ |(winding b q : ℝ) - winding a q| + |(covered m q : ℝ) - covered l q| := by
      intro q
      have : (covered (b :: m) q : ℝ) - covered (a :: l) q = ((winding b q : ℝ) - winding a q) + ((covered m q : ℝ) - covered l q) := by
        simp only [covered, List.map_cons, List.sum_cons]
        push_cast
        ring
      rw [this]
      exact abs_add_le _ _
    have h5 := integral_mono ic (ia.add il) hle
    simp only [Pi.add_apply] at h5
    rw [integral_add ia il] at h5
    simp only [List.map_cons, List.sum_cons]
    linarith

end Electrode.ShapeErr
