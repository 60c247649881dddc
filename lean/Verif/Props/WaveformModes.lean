import Verif.Props.WaveformsExist
import Verif.Props.ModeShift

/-
C148: voltages from `solve` give an ion the modes that were asked for.
-/
namespace Electrode

namespace Spec
/-- what is asked for at a position `x` to have modes along the columns of `r` with the curvatures `curv`: in the frame `r` the mixed second derivatives and two of the
others, each less the part of the pseudopotential -/
noncomputable def curvatureWants (s : List Elec) (rfs : ℝ) (x : V3) (r : Matrix (Fin 3) (Fin 3) ℝ) (curv : Fin 3 → ℝ) : List Want :=
  [(0, 0), (1, 1), (0, 1), (0, 2), (1, 2)].map fun (a, b) =>
    .turned x r [a, b] (some ((if a = b then curv a else 0) - contraction (fun ks => pseudoAt ⟨s, some rfs⟩ ks x) r [a, b])) none none
end Spec
open Spec Knob Wave Matrix

namespace WaveModes

theorem contraction_two (T : List (Fin 3) → ℝ) (r : Matrix (Fin 3) (Fin 3) ℝ) (a b : Fin 3) :
    contraction T r [a, b] = (rᵀ * (Matrix.of fun i k => T [i, k]) * r) a b := by
  simp only [contraction, List.length_cons, List.length_nil, tuples, Matrix.mul_apply, Fin.sum_univ_three, Matrix.transpose_apply, Matrix.of_apply]
  simp
  ring

theorem frame_sum (T : List (Fin 3) → ℝ) (r : Matrix (Fin 3) (Fin 3) ℝ) (hr : r * rᵀ = 1) : ∑ a, contraction T r [a, a] = ∑ i, T [i, i] := by
  simp only [contraction_two]
  have : (rᵀ * (Matrix.of fun i k => T [i, k]) * r).trace = (Matrix.of fun i k => T [i, k]).trace := by
    rw [Matrix.trace_mul_comm, ← Matrix.mul_assoc, hr, one_mul]
  simpa [Matrix.trace] using this

theorem frame_add (T U : List (Fin 3) → ℝ) (r : Matrix (Fin 3) (Fin 3) ℝ) (a b : Fin 3) :
    contraction (fun ks => T ks + U ks) r [a, b] = contraction T r [a, b] + contraction U r [a, b] := by
  simp only [contraction_two, Matrix.mul_apply, Fin.sum_univ_three, Matrix.transpose_apply, Matrix.of_apply]
  ring

theorem frame_symm (T : List (Fin 3) → ℝ) (hT : ∀ i k, T [i, k] = T [k, i]) (r : Matrix (Fin 3) (Fin 3) ℝ) (a b : Fin 3) :
    contraction T r [a, b] = contraction T r [b, a] := by
  have h : (rᵀ * (Matrix.of fun i k => T [i, k]) * r)ᵀ = rᵀ * (Matrix.of fun i k => T [i, k]) * r := by
    rw [Matrix.transpose_mul, Matrix.transpose_mul, Matrix.transpose_transpose, Matrix.mul_assoc]
    congr 2
    ext i k
    exact hT k i
  rw [contraction_two, contraction_two]
  exact congrFun (congrFun h b) a

/-- a matrix that is diagonal in the frame `r` -/
theorem frame_vec (T : List (Fin 3) → ℝ) (r : Matrix (Fin 3) (Fin 3) ℝ) (hr : r * rᵀ = 1) (w : Fin 3 → ℝ)
    (h : ∀ a b, contraction T r [a, b] = if a = b then w a else 0) (a i : Fin 3) : ∑ k, T [i, k] * r k a = w a * r i a := by
  have h1 : rᵀ * (Matrix.of fun i k => T [i, k]) * r = Matrix.diagonal w := by
    ext a b
    rw [← contraction_two, h, Matrix.diagonal_apply]
  have h2 : (Matrix.of fun i k => T [i, k]) * r = r * Matrix.diagonal w := by
    rw [← h1, ← Matrix.mul_assoc, ← Matrix.mul_assoc, hr, one_mul]
  have := congrFun (congrFun h2 i) a
  rw [Matrix.mul_diagonal, Matrix.mul_apply] at this
  rw [mul_comm (w a)]
  exact this

theorem vec_frame (T : List (Fin 3) → ℝ) (r : Matrix (Fin 3) (Fin 3) ℝ) (hr : rᵀ * r = 1) (w : Fin 3 → ℝ)
    (h : ∀ a i, ∑ k, T [i, k] * r k a = w a * r i a) (a b : Fin 3) : contraction T r [a, b] = if a = b then w a else 0 := by
  have h2 : (Matrix.of fun i k => T [i, k]) * r = r * Matrix.diagonal w := by
    ext i a
    rw [Matrix.mul_diagonal, Matrix.mul_apply, mul_comm (r i a)]
    exact h a i
  rw [contraction_two, Matrix.mul_assoc, h2, ← Matrix.mul_assoc, hr, one_mul, Matrix.diagonal_apply]

/-- the combined potential with other voltages, split -/
theorem total_with (s : List Elec) (v : List ℝ) (hv : v.length = s.length) (rfs : ℝ) (x : V3) (hx : offSystem s x) (l : Idx) (hl : l.length ≤ 4) :
    totalAt ⟨withDc s v, some rfs⟩ l x = electricalAt (withDc s v) .dc l x + pseudoAt ⟨s, some rfs⟩ l x := by
  have hoff := off_withDc s v hx
  rw [total_split _ rfs l hl _ fun _ _ => avail_of_off hoff _ _, electricalAt_eq _ .dc l (by omega) _ (avail_of_off hoff _ _),
    pseudoAt_eq s rfs l hl _ fun i _ _ => avail_of_off hx _ _]
  simp only [rf_withDc s _ hv]

theorem trace_with (s : List Elec) (v : List ℝ) (hv : v.length = s.length) (rfs : ℝ) (x : V3) (hx : offSystem s x) :
    ∑ i, totalAt ⟨withDc s v, some rfs⟩ [i, i] x = ∑ i, pseudoAt ⟨s, some rfs⟩ [i, i] x := by
  have hoff := off_withDc s v hx
  have := sysTens_trace (withDc s v) .dc x
  simp only [total_with s v hv rfs x hx [_, _] (by simp), Finset.sum_add_distrib]
  simp only [electricalAt_eq (withDc s v) .dc [_, _] (by simp) _ (avail_of_off hoff _ _), this, zero_add]

/-- the demands are met exactly by the voltages with which the combined potential has these second derivatives in the frame -/
theorem wants_met (s : List Elec) (v : List ℝ) (hv : v.length = s.length) (rfs : ℝ) (x : V3) (hx : offSystem s x) (r : Matrix (Fin 3) (Fin 3) ℝ) (hr : r * rᵀ = 1)
    (curv : Fin 3 → ℝ) (hsum : ∑ a, curv a = ∑ i, pseudoAt ⟨s, some rfs⟩ [i, i] x) :
    (∀ w ∈ curvatureWants s rfs x r curv, w.met s v) ↔
      ∀ a b, contraction (fun ks => totalAt ⟨withDc s v, some rfs⟩ ks x) r [a, b] = if a = b then curv a else 0 := by
  have hoff := off_withDc s v hx
  have e1 : ∀ a b, contraction (fun ks => totalAt ⟨withDc s v, some rfs⟩ ks x) r [a, b] =
      contraction (fun ks => electricalAt (withDc s v) .dc ks x) r [a, b] + contraction (fun ks => pseudoAt ⟨s, some rfs⟩ ks x) r [a, b] := fun a b => by
    rw [← frame_add, contraction_two, contraction_two]
    simp only [total_with s v hv rfs x hx [_, _] (by simp)]
  have e2 : ∀ a b, contraction (fun ks => electricalAt (withDc s v) .dc ks x) r [a, b] =
      (if a = b then curv a else 0) - contraction (fun ks => pseudoAt ⟨s, some rfs⟩ ks x) r [a, b] ↔
      contraction (fun ks => totalAt ⟨withDc s v, some rfs⟩ ks x) r [a, b] = if a = b then curv a else 0 := fun a b => by
    rw [e1, eq_sub_iff_add_eq]
  have e3 : (∀ w ∈ curvatureWants s rfs x r curv, w.met s v) ↔ ∀ q ∈ ([(0, 0), (1, 1), (0, 1), (0, 2), (1, 2)] : List (Fin 3 × Fin 3)),
      contraction (fun ks => totalAt ⟨withDc s v, some rfs⟩ ks x) r [q.1, q.2] = if q.1 = q.2 then curv q.1 else 0 := by
    unfold curvatureWants
    rw [List.forall_mem_map]
    refine forall₂_congr fun q _ => ?_
    rw [← e2]
    simp [Want.met]
  rw [e3]
  constructor
  · intro h
    have hs := frame_symm (fun ks => totalAt ⟨withDc s v, some rfs⟩ ks x) (fun i k => total_symm2 _ rfs x hoff i k) r
    have ht := frame_sum (fun ks => totalAt ⟨withDc s v, some rfs⟩ ks x) r hr
    rw [trace_with s v hv rfs x hx, ← hsum, Fin.sum_univ_three, Fin.sum_univ_three] at ht
    have h00 := h (0, 0) (by simp)
    have h11 := h (1, 1) (by simp)
    have h01 := h (0, 1) (by simp)
    have h02 := h (0, 2) (by simp)
    have h12 := h (1, 2) (by simp)
    simp only [if_true] at h00 h11
    have h22 : contraction (fun ks => totalAt ⟨withDc s v, some rfs⟩ ks x) r [2, 2] = curv 2 := by linarith
    intro a b
    fin_cases a <;> fin_cases b
    · simpa using h00
    · simpa using h01
    · simpa using h02
    · rw [hs]; simpa using h01
    · simpa using h11
    · simpa using h12
    · rw [hs]; simpa using h02
    · rw [hs]; simpa using h12
    · simpa using h22
  · exact fun h q _ => h q.1 q.2

end WaveModes
open WaveModes

/-- **C148.** If the second derivatives of the static potential in a frame are asked for at a point of the path, so that the pseudopotential is made up for, the axes of
this frame are the axes of the combined potential with the voltages of this row, with the wanted curvatures. Five demands do: the last curvature follows, the sum
of the three being what the rf field makes it. -/
theorem c148_axes (s : List Elec) (solver : (Volts s.length → ℝ) → List (Volts s.length → Prop) → Nat → Option (Volts s.length)) (hs : Minimises solver)
    (wants : List (List Want)) (loc : List (List Ctr)) (h : Demands wants loc) (hf : ∀ ws ∈ wants, ∀ w ∈ ws, w.fits s)
    (glob : List VDC) (hg : ∀ c ∈ glob, VDC.plain c) (u : Volts s.length) (c : ℝ) (hsol : solveSets s solver loc glob = .ok (u, c))
    (rfs : ℝ) (k : Nat) (ws : List Want) (hk : wants[k]? = some ws) (x : V3) (hx : offSystem s x) (r : Matrix (Fin 3) (Fin 3) ℝ) (hr : r * rᵀ = 1)
    (curv : Fin 3 → ℝ) (hsum : ∑ a, curv a = ∑ i, pseudoAt ⟨s, some rfs⟩ [i, i] x) (hb : ∀ w ∈ curvatureWants s rfs x r curv, w ∈ ws) (a i : Fin 3) :
    ∑ k', totalAt ⟨withDc s (rowOf u k), some rfs⟩ [i, k'] x * r k' a = curv a * r i a := by
  obtain ⟨-, h2, -⟩ := c146_met s solver hs wants loc h hf glob hg u c hsol
  exact frame_vec (fun ks => totalAt ⟨withDc s (rowOf u k), some rfs⟩ ks x) r hr curv
    ((wants_met s (rowOf u k) (by simp [rowOf]) rfs x hx r hr curv hsum).1 fun w hw => h2 k ws hk w (hb w hw)) a i

/-- **C148.** So `modes` reports the wanted curvatures, and where a curvature differs from the other two it reports the wanted axis, or its opposite. -/
theorem c148_modes (s : List Elec) (solver : (Volts s.length → ℝ) → List (Volts s.length → Prop) → Nat → Option (Volts s.length)) (hs : Minimises solver)
    (wants : List (List Want)) (loc : List (List Ctr)) (h : Demands wants loc) (hf : ∀ ws ∈ wants, ∀ w ∈ ws, w.fits s)
    (glob : List VDC) (hg : ∀ c ∈ glob, VDC.plain c) (u : Volts s.length) (c : ℝ) (hsol : solveSets s solver loc glob = .ok (u, c))
    (rfs : ℝ) (k : Nat) (ws : List Want) (hk : wants[k]? = some ws) (x : V3) (hx : offSystem s x) (r : Matrix (Fin 3) (Fin 3) ℝ) (hr : r * rᵀ = 1)
    (curv : Fin 3 → ℝ) (hsum : ∑ a, curv a = ∑ i, pseudoAt ⟨s, some rfs⟩ [i, i] x) (hb : ∀ w ∈ curvatureWants s rfs x r curv, w ∈ ws) (hmono : Monotone curv)
    (eigh : Eigh) (heigh : IsEigh eigh) (argsort : Argsort) (hsort : IsArgsort argsort) (ew : List ℝ) (ev : List (Fin 3 → ℝ))
    (hm : modes eigh argsort ⟨withDc s (rowOf u k), some rfs⟩ x true = .ok (ew, ev)) :
    ew = [curv 0, curv 1, curv 2] ∧
      ∀ a : Fin 3, (∀ b, b ≠ a → curv b ≠ curv a) → (∀ i, ev.getD a 0 i = r i a) ∨ ∀ i, ev.getD a 0 i = -r i a := by
  have hax := c148_axes s solver hs wants loc h hf glob hg u c hsol rfs k ws hk x hx r hr curv hsum hb
  have hr' : rᵀ * r = 1 := mul_eq_one_comm.1 hr
  have h1 : ModeShift.Eigs (fun i k' => totalAt ⟨withDc s (rowOf u k), some rfs⟩ [i, k'] x) curv fun a i => r i a := by
    refine ⟨hmono, fun a i => hax a i, fun a b => ?_⟩
    have := congrFun (congrFun hr' a) b
    rw [Matrix.mul_apply, Matrix.one_apply] at this
    exact this
  have h2 := ModeShift.eigs heigh hsort hm
  have h3 : ∀ j : Fin 3, ew.getD j 0 = curv j := fun j => by
    have := ModeShift.shift h1 h2 (δ := 0) (fun i k => by simp) j
    simpa [sub_eq_zero] using this
  obtain ⟨hl, -⟩ := c43_modes eigh heigh argsort hsort _ _ ew ev hm
  obtain ⟨p, q, t, rfl⟩ := List.length_eq_three.1 hl
  have e0 := h3 0
  have e1 := h3 1
  have e2 := h3 2
  simp at e0 e1 e2
  refine ⟨by rw [e0, e1, e2], fun a ha => ?_⟩
  have hoff := off_withDc s (rowOf u k) hx
  obtain ⟨g, hg0, hgap⟩ : ∃ g > 0, ∀ i, i ≠ a → g ≤ |curv i - curv a| := by
    by_cases hne : (Finset.univ.filter fun i => i ≠ a).Nonempty
    · refine ⟨(Finset.univ.filter fun i => i ≠ a).inf' hne fun i => |curv i - curv a|, ?_, fun i hi => Finset.inf'_le _ (by simpa using hi)⟩
      rw [gt_iff_lt, Finset.lt_inf'_iff]
      intro i hi
      exact abs_pos.2 (sub_ne_zero.2 (ha i (by simpa using hi)))
    · exact ⟨1, one_pos, fun i hi => absurd ⟨i, by simpa using hi⟩ hne⟩
  have h4 := ModeShift.turn (fun i k' => total_symm2 _ rfs x hoff i k') h1 h2 (δ := 0) (fun i k => by simp) a hg0.le fun i hi => by
    rw [h3 a]; exact hgap i hi
  have h5 : ModeShift.ip (fun i => r i a) (ev.getD a 0) ^ 2 = 1 := by
    have hle : 1 - ModeShift.ip (fun i => r i a) (ev.getD a 0) ^ 2 ≤ 0 := by
      by_contra hn
      have := mul_pos (pow_pos hg0 2) (not_le.1 hn)
      rw [show (3 * (0 : ℝ)) ^ 2 = 0 by norm_num] at h4
      linarith
    have hn1 := h1.norm (ev.getD a 0)
    have hn2 : ModeShift.ip (ev.getD a 0) (ev.getD a 0) = 1 := by simpa [ModeShift.ip] using h2.ortho a a
    rw [hn2] at hn1
    have h7 : ModeShift.ip (fun i => r i a) (ev.getD a 0) ^ 2 ≤ ∑ j : Fin 3, ModeShift.ip (fun i => r i j) (ev.getD a 0) ^ 2 :=
      Finset.single_le_sum (f := fun j : Fin 3 => ModeShift.ip (fun i => r i j) (ev.getD a 0) ^ 2) (fun j _ => sq_nonneg _) (Finset.mem_univ a)
    linarith
  have h6 : ∀ t : ℝ, t ^ 2 = 1 → ModeShift.ip (fun i => r i a) (ev.getD a 0) = t → ∀ i, ev.getD a 0 i = t * r i a := fun t ht hip => by
    have hn2 : ∑ i, ev.getD a 0 i * ev.getD a 0 i = 1 := by simpa using h2.ortho a a
    have hn1 : ∑ i, r i a * r i a = 1 := by simpa using h1.ortho a a
    have hz : ∑ i, (ev.getD a 0 i - t * r i a) ^ 2 = 0 := by
      have e : ∑ i, (ev.getD a 0 i - t * r i a) ^ 2 = ∑ i, ev.getD a 0 i * ev.getD a 0 i - 2 * t * ModeShift.ip (fun i => r i a) (ev.getD a 0) + t ^ 2 * ∑ i, r i a * r i a := by
        simp only [ModeShift.ip, Fin.sum_univ_three]
        ring
      rw [e, hn1, hn2, hip]
      nlinarith
    intro i
    have := (Finset.sum_eq_zero_iff_of_nonneg fun i _ => sq_nonneg _).1 hz i (Finset.mem_univ i)
    exact sub_eq_zero.1 (pow_eq_zero_iff (by norm_num) |>.1 this)
  rcases sq_eq_one_iff.1 h5 with h | h
  · exact .inl fun i => by simpa using h6 1 (by norm_num) h i
  · exact .inr fun i => by simpa using h6 (-1) (by norm_num) h i

namespace WaveModes

/-- what fits can be constructed -/
theorem ctr_ok (s : List Elec) (w : Want) (hf : w.fits s) : ∃ c, w.ctr = .ok c := by
  cases w with
  | deriv x l o a b =>
    obtain ⟨ind, hi⟩ := Knob.individual_some s x l.length hf.2
    obtain ⟨p, co, h1, -⟩ := c48_derivative s x l hf.1 ⟨none, a, b, o⟩ ind hi
    exact ⟨.single p, by simp only [Want.ctr, h1, Except.map]⟩
  | turned x r l o a b =>
    obtain ⟨ind, hi⟩ := Knob.individual_some s x l.length hf.2.2
    obtain ⟨p, co, h1, -⟩ := c48_rotated s x l hf.2.1 r hf.1 ⟨none, a, b, o⟩ ind hi
    exact ⟨.single p, by simp only [Want.ctr, h1, Except.map]⟩
  | sum parts o a b =>
    obtain ⟨comps, cs, h1, -⟩ := parts_ok s parts hf.2
    exact ⟨.single (.multi comps ⟨none, a, b, o⟩), by simp only [Want.ctr, h1, Except.map]⟩
  | volts a b i => exact ⟨_, rfl⟩

theorem demands_exist (s : List Elec) (wants : List (List Want)) (hf : ∀ ws ∈ wants, ∀ w ∈ ws, w.fits s) : ∃ loc, Demands wants loc := by
  have key : ∀ ws : List Want, (∀ w ∈ ws, w.fits s) → ∃ cs, List.Forall₂ (fun w c => w.ctr = .ok c) ws cs := fun ws => by
    induction ws with
    | nil => exact fun _ => ⟨[], .nil⟩
    | cons w ws ih =>
      intro h
      obtain ⟨cs, hcs⟩ := ih fun w hw => h w (by simp [hw])
      obtain ⟨c, hc⟩ := ctr_ok s w (h w (by simp))
      exact ⟨c :: cs, .cons hc hcs⟩
  unfold Demands
  induction wants with
  | nil => exact ⟨[], .nil⟩
  | cons ws wants ih =>
    obtain ⟨loc, hl⟩ := ih fun w hw => hf w (by simp [hw])
    obtain ⟨cs, hcs⟩ := key ws (hf ws (by simp))
    exact ⟨cs :: loc, .cons hcs hl⟩

end WaveModes

/-- **C148.** What a trap can do can be asked for: if with some voltages of at most `M` the ion has certain modes, then asking for these modes and for voltages of at
most `M` succeeds, and with the voltages that are returned, which may be others, `modes` reports the same curvatures, and the same axes where the
curvatures differ. -/
theorem c148_found (s : List Elec) (solver : (Volts s.length → ℝ) → List (Volts s.length → Prop) → Nat → Option (Volts s.length)) (hs : Minimises solver)
    (hfind : FindsOptimum solver) (rfs : ℝ) (x : V3) (hx : offSystem s x) (v0 : Fin s.length → ℝ) (M : ℝ) (hM : ∀ j, |v0 j| ≤ M)
    (eigh : Eigh) (heigh : IsEigh eigh) (argsort : Argsort) (hsort : IsArgsort argsort) (ew : List ℝ) (ev : List (Fin 3 → ℝ))
    (hm : modes eigh argsort ⟨withDc s (List.ofFn v0), some rfs⟩ x true = .ok (ew, ev)) :
    ∃ loc, Demands [curvatureWants s rfs x (Matrix.of fun i a => ev.getD a 0 i) (fun a => ew.getD a 0) ++ [.volts (some (-M)) (some M) none]] loc ∧
      ∃ u c, solveSets s solver loc [] = .ok (u, c) ∧ (∀ j : Fin s.length, |u.getD 0 0 j| ≤ M) ∧
        ∃ ev', modes eigh argsort ⟨withDc s (rowOf u 0), some rfs⟩ x true = .ok (ew, ev') ∧
          ∀ a : Fin 3, (∀ b : Fin 3, b ≠ a → ew.getD b 0 ≠ ew.getD a 0) → (∀ i, ev'.getD a 0 i = ev.getD a 0 i) ∨ ∀ i, ev'.getD a 0 i = -ev.getD a 0 i := by
  set r : Matrix (Fin 3) (Fin 3) ℝ := Matrix.of fun i a => ev.getD a 0 i with hrdef
  set curv : Fin 3 → ℝ := fun a => ew.getD a 0 with hcurv
  have hlen0 : (List.ofFn v0).length = s.length := by simp
  have hE := ModeShift.eigs heigh hsort hm
  have hr' : rᵀ * r = 1 := by
    ext a b
    rw [Matrix.mul_apply, Matrix.one_apply]
    exact hE.ortho a b
  have hr : r * rᵀ = 1 := mul_eq_one_comm.1 hr'
  have hfr := vec_frame (fun ks => totalAt ⟨withDc s (List.ofFn v0), some rfs⟩ ks x) r hr' curv fun a i => hE.vec a i
  have hsum : ∑ a, curv a = ∑ i, pseudoAt ⟨s, some rfs⟩ [i, i] x := by
    rw [← trace_with s (List.ofFn v0) hlen0 rfs x hx, ← frame_sum (fun ks => totalAt ⟨withDc s (List.ofFn v0), some rfs⟩ ks x) r hr]
    exact Finset.sum_congr rfl fun a _ => by rw [hfr]; simp
  have hmet := (wants_met s (List.ofFn v0) hlen0 rfs x hx r hr curv hsum).2 hfr
  set ws := curvatureWants s rfs x r curv ++ [Want.volts (some (-M)) (some M) none] with hws
  have hfits : ∀ ws' ∈ [ws], ∀ w ∈ ws', w.fits s := by
    intro ws' h1 w hw
    rw [List.mem_singleton] at h1
    subst h1
    rw [hws, List.mem_append, List.mem_singleton] at hw
    rcases hw with hw | rfl
    · unfold curvatureWants at hw
      obtain ⟨q, -, rfl⟩ := List.mem_map.1 hw
      exact ⟨hr, by simp, Knob.off_avail hx _⟩
    · intro j hj; cases hj
  obtain ⟨loc, hloc⟩ := demands_exist s [ws] hfits
  have hall : AllMet s [ws] [v0] := by
    intro k set hk w hw
    obtain rfl : k = 0 := by
      by_contra hne
      rw [List.getElem?_eq_none (by simp; omega)] at hk
      cases hk
    simp only [List.getElem?_cons_zero, Option.some.injEq] at hk
    subst hk
    have e : rowOf [v0] 0 = List.ofFn v0 := by simp [rowOf]
    rw [e]
    rw [hws, List.mem_append, List.mem_singleton] at hw
    rcases hw with hw | rfl
    · exact hmet w hw
    · intro j hj _
      have := abs_le.1 (hM ⟨j, hj⟩)
      rw [List.getD_eq_getElem _ _ (by simpa using hj), List.getElem_ofFn]
      refine ⟨fun m hm => ?_, fun m hm => ?_⟩
      · rw [← Option.some.inj hm]; exact this.1
      · rw [← Option.some.inj hm]; exact this.2
  obtain ⟨u, c, hsol⟩ := c146_succeeds s solver hfind [ws] loc hloc hfits [] (by simp)
    (fun ws' h1 => ⟨-M, M, by rw [List.mem_singleton] at h1; rw [h1, hws]; simp⟩) [v0] rfl hall (by simp)
  refine ⟨loc, hloc, u, c, hsol, fun j => ?_, ?_⟩
  · obtain ⟨-, h2, -⟩ := c146_met s solver hs [ws] loc hloc hfits [] (by simp) u c hsol
    have h3 := h2 0 ws rfl (.volts (some (-M)) (some M) none) (by rw [hws]; simp) j j.2 trivial
    rw [row_getD u 0 j j.2] at h3
    exact abs_le.2 ⟨h3.1 _ rfl, h3.2 _ rfl⟩
  · have hav : ∀ d typ, AvailAll (withDc s (rowOf u 0)) d typ := fun d typ => avail_of_off (off_withDc s (rowOf u 0) hx) d typ
    have hp : ∃ r, (⟨withDc s (rowOf u 0), some rfs⟩ : Sys).potential [x] 2 .tot = .ok r :=
      (c34_errors _ _ _ _).2 ⟨by decide, ⟨_, electrical_expand_eq _ _ 2 (by norm_num) .dc (hav _ _)⟩,
        _, pseudo_eq _ rfs _ 2 (by norm_num) fun i _ _ => hav i .rf⟩
    obtain ⟨⟨ew', ev'⟩, hm'⟩ := (c43_fails eigh argsort _ x true).2 hp
    obtain ⟨k1, k2⟩ := c148_modes s solver hs [ws] loc hloc hfits [] (by simp) u c hsol rfs 0 ws rfl x hx r hr curv hsum (fun w hw => by rw [hws]; simp [hw]) hE.mono
      eigh heigh argsort hsort ew' ev' hm'
    have e : ew' = ew := by
      rw [k1]
      obtain ⟨hl, -⟩ := c43_modes eigh heigh argsort hsort _ _ ew ev hm
      obtain ⟨p, q, t, rfl⟩ := List.length_eq_three.1 hl
      simp [hcurv]
    rw [e] at hm'
    exact ⟨ev', hm', fun a ha => k2 a ha⟩

/-- The hypotheses are met for the ring trap: its modes without static voltages are asked for, and found with voltages of at most one volt. -/
example : ∃ solver, Minimises solver ∧ FindsOptimum solver ∧ ∃ (loc : List (List Ctr)) (u : Volts Ring.trap.length) (c : ℝ) (eigh : Eigh) (argsort : Argsort)
    (ew : List ℝ) (ev : List (Fin 3 → ℝ)), solveSets Ring.trap solver loc [] = .ok (u, c) ∧
      modes eigh argsort ⟨withDc Ring.trap (rowOf u 0), some 1⟩ ⟨0, 0, 7⟩ true = .ok (ew, ev) ∧ ∀ w ∈ ew, 0 < w := by
  obtain ⟨solver, hs, hfind⟩ := exists_findsOptimum Ring.trap.length
  obtain ⟨eigh, argsort, ew, ev, he, ha, hm, hpos⟩ := Ring.trap_modes 1 one_ne_zero
  obtain ⟨loc, -, u, c, hsol, -, ev', hm', -⟩ := c148_found Ring.trap solver hs hfind 1 ⟨0, 0, 7⟩ Ring.trap_off7 (fun _ => 0) 1 (fun _ => by simp) eigh he argsort ha
    ew ev (by rw [← hm]; rfl)
  exact ⟨solver, hs, hfind, loc, u, c, eigh, argsort, ew, ev', hsol, hm', hpos⟩

end Electrode
