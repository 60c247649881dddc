import Verif.Props.ShimsSucceed
import Verif.Props.Expansion
import Verif.Props.Robust
import Verif.Props.Determine

/-
C145: what the vectors of `shims` do to the potential when they are added to the voltages.
-/
namespace Electrode

namespace Spec
/-- the voltages `w` after turning the knob `v` by `t` -/
def turned (w : List ℝ) (t : ℝ) (v : List ℝ) : List ℝ := List.zipWith (fun a b => a + t * b) w v

/-- the list handed to `shims` for derivatives at positions, in the usual frame -/
def demand (names : List (V3 × List (Fin 3))) : List (V3 × Option (Matrix Axis Axis ℝ) × Name) := names.map fun q => (q.1, none, q.2.map axisLetter)
end Spec
open Spec

namespace Knob

theorem tens_turned (s : List Elec) (w v : List ℝ) (hw : w.length = s.length) (hv : v.length = s.length) (t : ℝ) (l : Idx) (x : V3) :
    sysTens (withDc s (turned w t v)) .dc l x = sysTens (withDc s w) .dc l x + t * sysTens (withDc s v) .dc l x := by
  simp only [withDc_tens]
  unfold turned
  induction s generalizing w v with
  | nil => simp
  | cons e s ih =>
    obtain ⟨a, w, rfl⟩ : ∃ a w', w = a :: w' := List.exists_cons_of_ne_nil (by rintro rfl; simp at hw)
    obtain ⟨b, v, rfl⟩ : ∃ a w', v = a :: w' := List.exists_cons_of_ne_nil (by rintro rfl; simp at hv)
    have := ih w v (by simpa using hw) (by simpa using hv)
    simp only [List.zipWith_cons_cons, List.sum_cons, this]
    ring

theorem rf_withDc (s : List Elec) (v : List ℝ) (hv : v.length = s.length) (l : Idx) (x : V3) : sysTens (withDc s v) .rf l x = sysTens s .rf l x := by
  rw [sysTens_eq, sysTens_eq]
  unfold withDc
  induction s generalizing v with
  | nil => simp
  | cons e s ih =>
    obtain ⟨b, v, rfl⟩ : ∃ a w', v = a :: w' := List.exists_cons_of_ne_nil (by rintro rfl; simp at hv)
    have := ih v (by simpa using hv)
    simp only [List.zipWith_cons_cons, List.map_cons, List.sum_cons, this]
    rfl

theorem shapes_withDc (s : List Elec) (v : List ℝ) (hv : v.length = s.length) : (withDc s v).map Elec.shape = s.map Elec.shape := by
  unfold withDc
  induction s generalizing v with
  | nil => simp
  | cons e s ih =>
    obtain ⟨b, v, rfl⟩ : ∃ a w', v = a :: w' := List.exists_cons_of_ne_nil (by rintro rfl; simp at hv)
    simp only [List.zipWith_cons_cons, List.map_cons, ih v (by simpa using hv)]

theorem off_withDc (s : List Elec) (v : List ℝ) {x : V3} (h : offSystem s x) : offSystem (withDc s v) x := by
  intro e he
  unfold withDc at he
  rw [← List.map_uncurry_zip_eq_zipWith, List.mem_map] at he
  obtain ⟨q, hq, rfl⟩ := he
  exact h q.1 (List.of_mem_zip hq).1

theorem off_avail {s : List Elec} {x : V3} (h : offSystem s x) (d : Nat) : ∀ e ∈ s, e.shape.Avail d := by
  intro e he
  have := h e he
  unfold offElectrode at this
  cases hs : e.shape <;> rw [hs] at this <;> trivial

theorem individual_some (s : List Elec) (x : V3) (d : Nat) (h : ∀ e ∈ s, e.shape.Avail d) : ∃ ind, individualPotential s [x] d = .ok ind := by
  refine ⟨_, pySeq_map_ok s _ (fun e => [unitRowOf e d x]) fun e he => ?_⟩
  rw [zeroRows_eq]
  have := Elec.potential_new e [x] d 1 (h e he)
  rw [Elec.potential_none] at this
  simpa [unitRowOf] using this

/-- the objectives made for the demanded derivatives, and their rows -/
theorem demand_rows (s : List Elec) (names : List (V3 × Idx)) (hn : ∀ q ∈ names, q.2.length ≤ 5 ∧ ∀ e ∈ s, e.shape.Avail q.2.length) :
    ∃ (o : List SVC) (rs : List (List ℝ)), shimObjectives (demand names) = .ok o ∧ rs.length = names.length ∧
      (o ++ []).map (SVC.get s) = rs.map (fun r => .ok (some r)) ∧
      ∀ (j : Nat) (x : V3) (l : Idx), names[j]? = some (x, l) → ∃ r, rs[j]? = some r ∧
        ∀ v : List ℝ, v.length = s.length → pair r v = electricalAt (withDc s v) .dc l x := by
  have key : ∀ q ∈ names, ∃ oc : SVC × List ℝ, potentialObjective q.1 (q.2.map axisLetter) none ⟨some 0, none, none, none⟩ = .ok oc.1 ∧
      oc.1.get s = .ok (some oc.2) ∧ ∀ v : List ℝ, v.length = s.length → pair oc.2 v = electricalAt (withDc s v) .dc q.2 q.1 := fun q hq => by
    obtain ⟨ind, hi⟩ := individual_some s q.1 q.2.length (hn q hq).2
    obtain ⟨o, c, h1, -, h3, -, h5⟩ := c48_derivative s q.1 q.2 (hn q hq).1 ⟨some 0, none, none, none⟩ ind hi
    exact ⟨(o, c), h1, h3, h5⟩
  haveI : Inhabited SVC := ⟨.multi [] ⟨none, none, none, none⟩⟩
  choose! oc k1 k2 k3 using key
  refine ⟨names.map fun q => (oc q).1, names.map fun q => (oc q).2, ?_, by simp, ?_, fun j x l hj => ⟨(oc (x, l)).2, by simp [hj], ?_⟩⟩
  · unfold shimObjectives demand
    rw [List.map_map]
    exact pySeq_map_ok names _ _ fun q hq => k1 q hq
  · rw [List.append_nil, List.map_map, List.map_map]
    exact List.map_congr_left fun q hq => k2 q hq
  · exact k3 (x, l) (List.mem_of_getElem? hj)

theorem vector_length (pinv : Pinv) (solver : Solver) (hs : Correct solver) (s : List Elec)
    (xcd : List (V3 × Option (Matrix Axis Axis ℝ) × Name)) (o : List SVC)
    (ho : shimObjectives xcd = .ok o) (rs : List (List ℝ)) (hr : (o ++ []).map (SVC.get s) = rs.map fun r => .ok (some r))
    (vs : List (Option (List ℝ))) (h : (shims pinv solver s xcd [] none).2 = .ok vs) (i : Nat) (v : List ℝ) (hv : vs[i]? = some (some v)) :
    v.length = s.length := by
  obtain ⟨-, h2, h3⟩ := shims_inv pinv solver s xcd [] o none ho (by simp) rs hr (by simp [objectives, asked]) vs h
  have hi : i < rs.length := by
    rw [← h2]
    by_contra hn
    rw [List.getElem?_eq_none (by omega)] at hv
    cases hv
  obtain ⟨ctrs, p, c, hopt, -, hc | hc⟩ := h3 i hi
  · rw [hv] at hc; simp at hc
  · rw [hv] at hc
    simp only [Option.some.injEq] at hc
    rw [hc.2, List.length_map]
    exact (c38_constraints pinv solver hs s ctrs p c hopt).1

end Knob
open Knob

/-- **C145**, for all objectives but the last one, which `optimize` ignores (C38). Adding `t` times vector `i` of `shims` to the dc voltages changes
derivative `i` at its position by `t` and leaves the other demanded derivatives as they are, whatever the voltages were before. -/
theorem c145_knob_partial (pinv : Pinv) (hp : IsPinv pinv) (solver : Solver) (hs : Correct solver) (s : List Elec) (names : List (V3 × Idx))
    (hn : ∀ q ∈ names, q.2.length ≤ 5 ∧ ∀ e ∈ s, e.shape.Avail q.2.length) (vs : List (Option (List ℝ)))
    (h : (shims pinv solver s (demand names) [] none).2 = .ok vs) (i : Nat) (v : List ℝ) (hv : vs[i]? = some (some v)) (w : List ℝ)
    (hw : w.length = s.length) (t : ℝ) (j : Nat) (x : V3) (l : Idx) (hj : names[j]? = some (x, l)) (hlast : j + 1 < names.length) :
    electricalAt (withDc s (turned w t v)) .dc l x = electricalAt (withDc s w) .dc l x + if i = j then t else 0 := by
  obtain ⟨o, rs, ho, hlen, hr, hrow⟩ := demand_rows s names hn
  obtain ⟨r, hrj, hrv⟩ := hrow j x l hj
  have hvl := vector_length pinv solver hs s _ o ho rs hr vs h i v hv
  have h1 := (c39_shims_partial pinv hp solver hs s (demand names) [] o none ho (by simp) rs hr (by simp [objectives, asked]) vs h).2 i j v r hv hrj
    (by rw [hlen]; exact hlast)
  rw [hrv v hvl] at h1
  obtain ⟨hl, ha⟩ := hn _ (List.mem_of_getElem? hj)
  have e := fun u => electricalAt_eq (withDc s u) .dc l (by simp only at hl; omega) x (withDc_avail s u l.length .dc ha)
  rw [e] at h1
  rw [e, e, tens_turned s w v hw hvl, h1]
  by_cases hij : i = j <;> simp [hij]

/-- **C145.** The vectors exist: if for each demanded derivative there are voltages that produce it and none of the others, `shims` returns a vector of
voltages for each. -/
theorem c145_independent (pinv : Pinv) (hp : IsPinv pinv) (solver : Solver) (hs : Correct solver) (hf : Finds solver) (s : List Elec)
    (names : List (V3 × Idx)) (hn : ∀ q ∈ names, q.2.length ≤ 5 ∧ ∀ e ∈ s, e.shape.Avail q.2.length)
    (hind : ∀ i < names.length, ∃ u : List ℝ, u.length = s.length ∧ ∀ (j : Nat) (x : V3) (l : Idx), names[j]? = some (x, l) →
      electricalAt (withDc s u) .dc l x = if j = i then 1 else 0) :
    ∃ vs : List (List ℝ), (shims pinv solver s (demand names) [] none).2 = .ok (vs.map some) ∧ vs.length = names.length ∧
      ∀ v ∈ vs, v.length = s.length := by
  obtain ⟨o, rs, ho, hlen, hr, hrow⟩ := demand_rows s names hn
  obtain ⟨vs, h1, h2⟩ := c39_succeeds pinv hp solver hs hf s (demand names) [] o ho (by simp) rs hr fun i hi => by
    obtain ⟨u, hu, hu'⟩ := hind i (by omega)
    refine ⟨u, hu, fun j r hj => ?_⟩
    have hjl : j < names.length := by
      rw [← hlen]
      by_contra hc
      rw [List.getElem?_eq_none (by omega)] at hj
      cases hj
    obtain ⟨r', hr', hrv⟩ := hrow j names[j].1 names[j].2 (by simp [hjl])
    rw [hj] at hr'
    obtain rfl := Option.some.inj hr'
    rw [hrv u hu]
    exact hu' j _ _ (by simp [hjl])
  refine ⟨vs, h1, by rw [h2, hlen], fun v hv => ?_⟩
  obtain ⟨k, hk, rfl⟩ := List.getElem_of_mem hv
  exact vector_length pinv solver hs s _ o ho rs hr _ h1 k vs[k] (by simp [hk])

/-- **C145**, the combined potential: the pseudopotential stays, so the same holds for its derivatives up to the fourth. -/
theorem c145_total_partial (pinv : Pinv) (hp : IsPinv pinv) (solver : Solver) (hs : Correct solver) (s : List Elec) (names : List (V3 × Idx))
    (hn : ∀ q ∈ names, q.2.length ≤ 4 ∧ offSystem s q.1) (vs : List (Option (List ℝ)))
    (h : (shims pinv solver s (demand names) [] none).2 = .ok vs) (i : Nat) (v : List ℝ) (hv : vs[i]? = some (some v)) (w : List ℝ)
    (hw : w.length = s.length) (t c : ℝ) (j : Nat) (x : V3) (l : Idx) (hj : names[j]? = some (x, l)) (hlast : j + 1 < names.length) :
    totalAt ⟨withDc s (turned w t v), some c⟩ l x = totalAt ⟨withDc s w, some c⟩ l x + if i = j then t else 0 := by
  have hn' : ∀ q ∈ names, q.2.length ≤ 5 ∧ ∀ e ∈ s, e.shape.Avail q.2.length := fun q hq => ⟨by have := (hn q hq).1; omega, off_avail (hn q hq).2 _⟩
  obtain ⟨hl, ha⟩ := hn _ (List.mem_of_getElem? hj)
  have h1 := c145_knob_partial pinv hp solver hs s names hn' vs h i v hv w hw t j x l hj hlast
  obtain ⟨o, rs, ho, -, hr, -⟩ := demand_rows s names hn'
  have hvl := vector_length pinv solver hs s _ o ho rs hr vs h i v hv
  have htl : (turned w t v).length = s.length := by simp [turned, hw, hvl]
  have hoff := fun u => off_withDc s u ha
  rw [electricalAt_eq _ .dc l (by simp only at hl; omega) x (avail_of_off (hoff _) _ _),
    electricalAt_eq _ .dc l (by simp only at hl; omega) x (avail_of_off (hoff _) _ _)] at h1
  rw [total_split _ c l hl x fun _ _ => avail_of_off (hoff _) _ _, total_split _ c l hl x fun _ _ => avail_of_off (hoff _) _ _, h1]
  simp only [rf_withDc s _ htl, rf_withDc s _ hw]
  ring

/-- **C145.** If the three components of the field at a position are among the demanded derivatives (and not the last), the knobs for other
derivatives leave an equilibrium there where it is. -/
theorem c145_stays_partial (pinv : Pinv) (hp : IsPinv pinv) (solver : Solver) (hs : Correct solver) (s : List Elec) (x0 : Fin 3 → ℝ) (rest : List (V3 × Idx))
    (hne : rest ≠ []) (hn : ∀ q ∈ rest, q.2.length ≤ 4 ∧ offSystem s q.1) (h0 : offSystem s (toV3 x0)) (vs : List (Option (List ℝ)))
    (h : (shims pinv solver s (demand ((toV3 x0, [0]) :: (toV3 x0, [1]) :: (toV3 x0, [2]) :: rest)) [] none).2 = .ok vs)
    (i : Nat) (hi : 3 ≤ i) (v : List ℝ) (hv : vs[i]? = some (some v)) (w : List ℝ)
    (hw : w.length = s.length) (c t : ℝ) (hg : slopeAt ⟨withDc s w, some c⟩ x0 = 0) : slopeAt ⟨withDc s (turned w t v), some c⟩ x0 = 0 := by
  have hlen : 0 < rest.length := List.length_pos_iff.2 hne
  have hn' : ∀ q ∈ (toV3 x0, ([0] : Idx)) :: (toV3 x0, [1]) :: (toV3 x0, [2]) :: rest, q.2.length ≤ 4 ∧ offSystem s q.1 := by
    intro q hq
    simp only [List.mem_cons] at hq
    rcases hq with rfl | rfl | rfl | hq
    · exact ⟨by simp, h0⟩
    · exact ⟨by simp, h0⟩
    · exact ⟨by simp, h0⟩
    · exact hn q hq
  have key := fun j x l hj hl => c145_total_partial pinv hp solver hs s _ hn' vs h i v hv w hw t c j x l hj hl
  have hg' : ∀ a : Fin 3, totalAt ⟨withDc s w, some c⟩ [a] (toV3 x0) = 0 := fun a => congrFun hg a
  funext a
  show totalAt ⟨withDc s (turned w t v), some c⟩ [a] (toV3 x0) = 0
  match a with
  | 0 => rw [key 0 (toV3 x0) [0] rfl (by simp), hg', if_neg (by omega), add_zero]
  | 1 => rw [key 1 (toV3 x0) [1] rfl (by simp), hg', if_neg (by omega), add_zero]
  | 2 => rw [key 2 (toV3 x0) [2] rfl (by simp; omega), hg', if_neg (by omega), add_zero]

/-- **C145.** The knob for a component of the field moves a minimum: the new minimum is at most `|t| / lam` away, where `lam` is the smallest curvature
in the region. -/
theorem c145_moves_partial (pinv : Pinv) (hp : IsPinv pinv) (solver : Solver) (hs : Correct solver) (s : List Elec) (x0 : Fin 3 → ℝ) (rest : List (V3 × Idx))
    (hne : rest ≠ []) (hn : ∀ q ∈ rest, q.2.length ≤ 4 ∧ offSystem s q.1) (vs : List (Option (List ℝ)))
    (h : (shims pinv solver s (demand ((toV3 x0, [0]) :: (toV3 x0, [1]) :: (toV3 x0, [2]) :: rest)) [] none).2 = .ok vs)
    (i : Fin 3) (v : List ℝ) (hv : vs[i.val]? = some (some v)) (w : List ℝ)
    (hw : w.length = s.length) (c t : ℝ) (hg : slopeAt ⟨withDc s w, some c⟩ x0 = 0) (R : ℝ) (hR : 0 < R) (hclear : ∀ x ∈ rball x0 R, offSystem s (toV3 x))
    (lam : ℝ) (hl : 0 < lam) (hst : Stiff ⟨withDc s (turned w t v), some c⟩ lam (rball x0 R)) (ht : |t| < lam * R) :
    ∃ x1 ∈ rball x0 R, slopeAt ⟨withDc s (turned w t v), some c⟩ x1 = 0 ∧
      (∀ y ∈ rball x0 R, valueAt ⟨withDc s (turned w t v), some c⟩ x1 ≤ valueAt ⟨withDc s (turned w t v), some c⟩ y) ∧ vlen (x0 - x1) ≤ |t| / lam := by
  have h0 : offSystem s (toV3 x0) := hclear x0 (Rob.center_mem x0 hR)
  have hlen : 0 < rest.length := List.length_pos_iff.2 hne
  have hn' : ∀ q ∈ (toV3 x0, ([0] : Idx)) :: (toV3 x0, [1]) :: (toV3 x0, [2]) :: rest, q.2.length ≤ 4 ∧ offSystem s q.1 := by
    intro q hq
    simp only [List.mem_cons] at hq
    rcases hq with rfl | rfl | rfl | hq
    · exact ⟨by simp, h0⟩
    · exact ⟨by simp, h0⟩
    · exact ⟨by simp, h0⟩
    · exact hn q hq
  have key := fun j x l hj hl => c145_total_partial pinv hp solver hs s _ hn' vs h i v hv w hw t c j x l hj hl
  have hg' : ∀ a : Fin 3, totalAt ⟨withDc s w, some c⟩ [a] (toV3 x0) = 0 := fun a => congrFun hg a
  have hite : ∀ (n : Nat) (a : Fin 3), n = a.val → (if (i : Nat) = n then t else 0) = if i = a then t else 0 := fun n a hna => by
    simp only [hna, Fin.ext_iff]
  have hslope : ∀ a : Fin 3, slopeAt ⟨withDc s (turned w t v), some c⟩ x0 a = if i = a then t else 0 := fun a => by
    show totalAt ⟨withDc s (turned w t v), some c⟩ [a] (toV3 x0) = _
    match a with
    | 0 => rw [key 0 (toV3 x0) [0] rfl (by simp), hg', zero_add]; exact hite _ _ rfl
    | 1 => rw [key 1 (toV3 x0) [1] rfl (by simp), hg', zero_add]; exact hite _ _ rfl
    | 2 => rw [key 2 (toV3 x0) [2] rfl (by simp; omega), hg', zero_add]; exact hite _ _ rfl
  have hvl : vlen (slopeAt ⟨withDc s (turned w t v), some c⟩ x0) = |t| := by
    unfold vlen
    simp only [hslope, ite_pow, Finset.sum_ite_eq, Finset.mem_univ, if_true, ne_eq, OfNat.ofNat_ne_zero, not_false_eq_true, zero_pow]
    exact Real.sqrt_sq_eq_abs t
  obtain ⟨x1, h1, h2, h3, h4⟩ := c130_exists (withDc s (turned w t v)) c x0 R hR (fun x hx => off_withDc s _ (hclear x hx)) lam hl hst (by rw [hvl]; exact ht)
  exact ⟨x1, h1, h2, h3, by rwa [hvl] at h4⟩

namespace Knob

theorem total_turned (s : List Elec) (w v : List ℝ) (hw : w.length = s.length) (hv : v.length = s.length) (c t : ℝ) (l : Idx) (hl : l.length ≤ 4) (x : V3)
    (hx : offSystem s x) : totalAt ⟨withDc s (turned w t v), some c⟩ l x = totalAt ⟨withDc s w, some c⟩ l x + t * totalAt ⟨withDc s v, some 0⟩ l x := by
  have htl : (turned w t v).length = s.length := by simp [turned, hw, hv]
  have hoff := fun u => off_withDc s u hx
  simp only [fun u c => total_split (withDc s u) c l hl x fun _ _ => avail_of_off (hoff u) _ _, tens_turned s w v hw hv, rf_withDc s _ htl, rf_withDc s _ hw,
    rf_withDc s _ hv, psT_smul]
  ring

end Knob

/-- **C145.** The knobs for the components of the field move a minimum to and fro: for all small `t` there is a minimum with a distance of at most
`2 |t| / lam` from the old one, where `lam` is the smallest curvature near the old minimum. -/
theorem c145_small_partial (pinv : Pinv) (hp : IsPinv pinv) (solver : Solver) (hs : Correct solver) (s : List Elec) (x0 : Fin 3 → ℝ) (rest : List (V3 × Idx))
    (hne : rest ≠ []) (hn : ∀ q ∈ rest, q.2.length ≤ 4 ∧ offSystem s q.1) (vs : List (Option (List ℝ)))
    (h : (shims pinv solver s (demand ((toV3 x0, [0]) :: (toV3 x0, [1]) :: (toV3 x0, [2]) :: rest)) [] none).2 = .ok vs)
    (i : Fin 3) (v : List ℝ) (hv : vs[i.val]? = some (some v)) (w : List ℝ)
    (hw : w.length = s.length) (c : ℝ) (hg : slopeAt ⟨withDc s w, some c⟩ x0 = 0) (R : ℝ) (hR : 0 < R) (hclear : ∀ x ∈ rball x0 R, offSystem s (toV3 x))
    (lam : ℝ) (hl : 0 < lam) (hst : Stiff ⟨withDc s w, some c⟩ lam (rball x0 R)) :
    ∃ r ε, 0 < r ∧ 0 < ε ∧ ∀ t, |t| < ε → ∃ x1 ∈ rball x0 r, slopeAt ⟨withDc s (turned w t v), some c⟩ x1 = 0 ∧
      (∀ y ∈ rball x0 r, valueAt ⟨withDc s (turned w t v), some c⟩ x1 ≤ valueAt ⟨withDc s (turned w t v), some c⟩ y) ∧ vlen (x0 - x1) ≤ 2 * |t| / lam := by
  have h0 : offSystem s (toV3 x0) := hclear x0 (Rob.center_mem x0 hR)
  have hn' : ∀ q ∈ (toV3 x0, ([0] : Idx)) :: (toV3 x0, [1]) :: (toV3 x0, [2]) :: rest, q.2.length ≤ 5 ∧ ∀ e ∈ s, e.shape.Avail q.2.length := by
    intro q hq
    simp only [List.mem_cons] at hq
    rcases hq with rfl | rfl | rfl | hq
    · exact ⟨by simp, off_avail h0 _⟩
    · exact ⟨by simp, off_avail h0 _⟩
    · exact ⟨by simp, off_avail h0 _⟩
    · exact ⟨by have := (hn q hq).1; omega, off_avail (hn q hq).2 _⟩
  obtain ⟨o, rs, ho, -, hr, -⟩ := demand_rows s _ hn'
  have hvl := vector_length pinv solver hs s _ o ho rs hr vs h i v hv
  obtain ⟨r1, M, hr1, hM0, -, hM⟩ := Expan.bounded (withDc s v) 0 2 (by norm_num) x0 (off_withDc s v h0)
  set r := min R r1 with hrd
  have hr0 : 0 < r := lt_min hR hr1
  have hsub : ∀ y ∈ rball x0 r, y ∈ rball x0 R ∧ y ∈ rball x0 r1 := fun y hy =>
    ⟨show vlen (y - x0) ≤ R from le_trans hy (min_le_left R r1), show vlen (y - x0) ≤ r1 from le_trans hy (min_le_right R r1)⟩
  refine ⟨r, min (lam / (2 * (3 * M + 1))) (lam / 2 * r), hr0, lt_min (by positivity) (by positivity), fun t ht => ?_⟩
  have hstiff : Stiff ⟨withDc s (turned w t v), some c⟩ (lam / 2) (rball x0 r) := by
    intro y hy u
    obtain ⟨hyR, hy1⟩ := hsub y hy
    have h1 := hst y hyR u
    have e1 : ∀ a b : Fin 3, totalAt ⟨withDc s (turned w t v), some c⟩ [a, b] (toV3 y)
        = totalAt ⟨withDc s w, some c⟩ [a, b] (toV3 y) + t * totalAt ⟨withDc s v, some 0⟩ [a, b] (toV3 y) := fun a b =>
      total_turned s w v hw hvl c t [a, b] (by simp) (toV3 y) (hclear y hyR)
    have hb : ∀ a b : Fin 3, |totalAt ⟨withDc s v, some 0⟩ [a, b] (toV3 y)| ≤ M := fun a b => hM y hy1 [a, b] rfl
    have hq : |∑ a, ∑ b, u a * totalAt ⟨withDc s v, some 0⟩ [a, b] (toV3 y) * u b| ≤ 3 * M * ∑ a, u a ^ 2 := by
      have hstep : |∑ a, ∑ b, u a * totalAt ⟨withDc s v, some 0⟩ [a, b] (toV3 y) * u b| ≤ ∑ a : Fin 3, ∑ b : Fin 3, M * ((u a ^ 2 + u b ^ 2) / 2) := by
        refine (Finset.abs_sum_le_sum_abs _ _).trans (Finset.sum_le_sum fun a _ => (Finset.abs_sum_le_sum_abs _ _).trans (Finset.sum_le_sum fun b _ => ?_))
        rw [abs_mul, abs_mul]
        have h2 : |u a| * |u b| ≤ (u a ^ 2 + u b ^ 2) / 2 := by
          nlinarith [sq_nonneg (|u a| - |u b|), sq_abs (u a), sq_abs (u b)]
        calc |u a| * |totalAt ⟨withDc s v, some 0⟩ [a, b] (toV3 y)| * |u b| = |totalAt ⟨withDc s v, some 0⟩ [a, b] (toV3 y)| * (|u a| * |u b|) := by ring
          _ ≤ M * ((u a ^ 2 + u b ^ 2) / 2) := mul_le_mul (hb a b) h2 (by positivity) hM0
      refine hstep.trans (le_of_eq ?_)
      simp only [Fin.sum_univ_three]
      ring
    have e2 : (∑ a, ∑ b, u a * totalAt ⟨withDc s (turned w t v), some c⟩ [a, b] (toV3 y) * u b)
        = (∑ a, ∑ b, u a * totalAt ⟨withDc s w, some c⟩ [a, b] (toV3 y) * u b)
          + t * ∑ a, ∑ b, u a * totalAt ⟨withDc s v, some 0⟩ [a, b] (toV3 y) * u b := by
      simp only [e1, Fin.sum_univ_three]
      ring
    rw [e2]
    have hS : 0 ≤ ∑ a, u a ^ 2 := Finset.sum_nonneg fun a _ => sq_nonneg _
    have ht1 : |t| * (3 * M) ≤ lam / 2 := by
      have h3 := (lt_of_lt_of_le ht (min_le_left _ _)).le
      rw [le_div_iff₀ (by positivity)] at h3
      nlinarith [abs_nonneg t]
    have h4 : |t * ∑ a, ∑ b, u a * totalAt ⟨withDc s v, some 0⟩ [a, b] (toV3 y) * u b| ≤ lam / 2 * ∑ a, u a ^ 2 := by
      rw [abs_mul]
      calc _ ≤ |t| * (3 * M * ∑ a, u a ^ 2) := mul_le_mul_of_nonneg_left hq (abs_nonneg t)
        _ = |t| * (3 * M) * ∑ a, u a ^ 2 := by ring
        _ ≤ _ := mul_le_mul_of_nonneg_right ht1 hS
    have := (abs_le.1 h4).1
    linarith
  obtain ⟨x1, k1, k2, k3, k4⟩ := c145_moves_partial pinv hp solver hs s x0 rest hne hn vs h i v hv w hw c t hg r hr0 (fun x hx => hclear x (hsub x hx).1)
    (lam / 2) (half_pos hl) hstiff (lt_of_lt_of_le ht (min_le_right _ _))
  refine ⟨x1, k1, k2, k3, k4.trans (le_of_eq ?_)⟩
  field_simp

/-- **C145.** Near the position a knob does what it does there up to a known error: polygon electrodes that do not overlap, entries of the vector up to `V`. -/
theorem c145_nearby_partial (pinv : Pinv) (hp : IsPinv pinv) (solver : Solver) (hs : Correct solver) (s : List Elec) (h : ℝ) (htr : polygonTrap h 0 s)
    (hsep : separate s) (names : List (V3 × Idx))
    (hn : ∀ q ∈ names, q.2.length ≤ 4 ∧ 0 < q.1.z) (vs : List (Option (List ℝ)))
    (hok : (shims pinv solver s (demand names) [] none).2 = .ok vs) (i : Nat) (v : List ℝ) (hv : vs[i]? = some (some v)) (V : ℝ) (h0 : 0 ≤ V) (hV : ∀ u ∈ v, |u| ≤ V)
    (w : List ℝ) (hw : w.length = s.length) (t : ℝ) (j : Nat) (x d : Fin 3 → ℝ) (l : Idx) (hj : names[j]? = some (toV3 x, l)) (hlast : j + 1 < names.length)
    (z0 : ℝ) (hz : 0 < z0) (hx : z0 ≤ x 2) (hxd : z0 ≤ x 2 + d 2) :
    |electricalAt (withDc s (turned w t v)) .dc l (toV3 (x + d)) - (electricalAt (withDc s w) .dc l (toV3 (x + d)) + if i = j then t else 0)|
      ≤ |t| * (2 * [1, 4, 18, 150, 1620, 17100].getD (l.length + 1) 0 * V / z0 ^ (l.length + 1) * (√3 * vlen d)) := by
  have hoff : ∀ p : V3, 0 < p.z → offSystem s p := fun p hp => Limit.trap_off htr (Limit.images_ne hp (.inl rfl))
  have hn' : ∀ q ∈ names, q.2.length ≤ 5 ∧ ∀ e ∈ s, e.shape.Avail q.2.length := fun q hq =>
    ⟨by have := (hn q hq).1; omega, off_avail (hoff _ (hn q hq).2) _⟩
  obtain ⟨hl, -⟩ := hn _ (List.mem_of_getElem? hj)
  simp only at hl
  obtain ⟨o, rs, ho, -, hr, -⟩ := demand_rows s names hn'
  have hvl := vector_length pinv solver hs s _ o ho rs hr vs hok i v hv
  have h1 := c145_knob_partial pinv hp solver hs s names hn' vs hok i v hv w hw t j (toV3 x) l hj hlast
  have a0 : ∀ u, AvailAll (withDc s u) l.length .dc := fun u => withDc_avail s u l.length .dc (off_avail (hoff (toV3 x) (lt_of_lt_of_le hz hx)) _)
  have e := fun u p => electricalAt_eq (withDc s u) .dc l (by omega) p (a0 u)
  have e1 : electricalAt (withDc s v) .dc l (toV3 x) * t = if i = j then t else 0 := by
    rw [e, e, tens_turned s w v hw hvl] at h1
    rw [e]
    linarith
  have htr' : polygonTrap h 0 (withDc s v) := fun e he => by
    have : e.shape ∈ (withDc s v).map Elec.shape := List.mem_map.2 ⟨e, he, rfl⟩
    rw [shapes_withDc s v hvl] at this
    obtain ⟨e', he', h'⟩ := List.mem_map.1 this
    obtain ⟨polys, hp⟩ := htr e' he'
    exact ⟨polys, by rw [← h', hp]⟩
  have hsep' : separate (withDc s v) := by
    unfold separate at hsep ⊢
    filter_upwards [hsep] with q hq
    have e3 : ∀ L : List Elec, L.map (fun e => |coverage q e.shape|) = (L.map Elec.shape).map fun sh => |coverage q sh| := fun L => by
      rw [List.map_map]; rfl
    rw [e3, shapes_withDc s v hvl, ← e3]
    exact hq
  have hV0 : ∀ e ∈ withDc s v, |(e.volt .dc).getD 0| ≤ V := fun e he => by
    unfold withDc at he
    rw [← List.map_uncurry_zip_eq_zipWith, List.mem_map] at he
    obtain ⟨q, hq, rfl⟩ := he
    exact hV q.2 (List.of_mem_zip hq).2
  have hd : electricalAt (withDc s (turned w t v)) .dc l (toV3 (x + d)) - (electricalAt (withDc s w) .dc l (toV3 (x + d)) + if i = j then t else 0)
      = t * (electricalAt (withDc s v) .dc l (toV3 (x + d)) - electricalAt (withDc s v) .dc l (toV3 x)) := by
    rw [← e1, e, e, e, e, tens_turned s w v hw hvl]
    ring
  rw [hd, abs_mul]
  refine mul_le_mul_of_nonneg_left ?_ (abs_nonneg t)
  have := c135_polygons (withDc s v) h htr' hsep' .dc V h0 hV0 l 0 (by omega) x d z0 hz hx hxd
  simpa [expansion] using this

/-! ### a case -/

/-- two pixels driven with rf, three pixels and a cover -/
noncomputable def knobSys : List Elec := [⟨"rf", 0, 1, .points [⟨√2, 0⟩, ⟨-√2, 0⟩] [1, 1] 50 0⟩, ⟨"a", 0, 0, .points [⟨√3, 0⟩] [1] 50 0⟩,
  ⟨"b", 0, 0, .points [⟨0, √3⟩] [1] 50 0⟩, ⟨"c", 0, 0, .points [⟨0, 0⟩] [1] 50 0⟩, ⟨"d", 0, 0, .cover 1⟩]

namespace Knob

theorem case_off : offSystem knobSys ⟨0, 0, 1⟩ := by
  intro e he
  simp only [knobSys, List.mem_cons, List.not_mem_nil, or_false] at he
  rcases he with rfl | rfl | rfl | rfl | rfl
  on_goal 5 => trivial
  all_goals
    intro q hq m h1 h2 h3
    have : m = 0 := by omega
    subst this
    simp at h3

theorem case_value (u1 u2 u3 u4 : ℝ) : electricalAt (withDc knobSys [0, u1, u2, u3, u4]) .dc [] ⟨0, 0, 1⟩ = (u1 / 8 + u2 / 8 + u3) / (2 * Real.pi) + u4 := by
  have h2 : √3 ^ 2 = (3 : ℝ) := by norm_num
  have h4 : √(3 + 1) = (2 : ℝ) := by
    rw [show (3 : ℝ) + 1 = 2 ^ 2 by norm_num]; exact Real.sqrt_sq (by norm_num)
  have h0 : entrySel 0 [] = .one 0 := by decide
  rw [electricalAt_withDc _ _ _ (by simp) _ (off_avail case_off _)]
  simp [knobSys, tens, h0, selVal, Shape.contrib, pointContrib, coverContrib, images, coverRange, V3.lift, pixelComp, pointTerm, pointNum, pointNum0,
    pointNorm, PExpr.eval, pointEnv, List.range_succ, h2, h4]
  have := Real.pi_ne_zero
  field_simp
  ring

theorem case_field (u1 u2 u3 u4 : ℝ) (a : Fin 3) : electricalAt (withDc knobSys [0, u1, u2, u3, u4]) .dc [a] ⟨0, 0, 1⟩
    = ![3 * √3 / 32 * u1 / (2 * Real.pi), 3 * √3 / 32 * u2 / (2 * Real.pi), (u1 / 32 + u2 / 32 - 2 * u3) / (2 * Real.pi) + u4] a := by
  have h2 : √3 ^ 2 = (3 : ℝ) := by norm_num
  have h4 : √(3 + 1) = (2 : ℝ) := by
    rw [show (3 : ℝ) + 1 = 2 ^ 2 by norm_num]; exact Real.sqrt_sq (by norm_num)
  have s0 : entrySel 1 [0] = .one 0 := by decide
  have s1 : entrySel 1 [1] = .one 1 := by decide
  have s2 : entrySel 1 [2] = .one 2 := by decide
  have hpi := Real.pi_ne_zero
  rw [electricalAt_withDc _ _ _ (by simp) _ (off_avail case_off _)]
  have e2 : ∀ a b c : ℝ, ![a, b, c] 2 = c := fun _ _ _ => rfl
  fin_cases a <;>
    simp [knobSys, tens, s0, s1, s2, selVal, Shape.contrib, pointContrib, coverContrib, images, coverRange, V3.lift, pixelComp, pointTerm, pointNum, pointNum1,
      pointNorm, PExpr.eval, pointEnv, List.range_succ, h2, h4, e2] <;> field_simp <;> ring

/-- all fields and potentials at that position can be produced -/
theorem case_solve (e : Fin 3 → ℝ) (f : ℝ) : ∃ u : List ℝ, u.length = knobSys.length ∧ (∀ a, electricalAt (withDc knobSys u) .dc [a] ⟨0, 0, 1⟩ = e a) ∧
    electricalAt (withDc knobSys u) .dc [] ⟨0, 0, 1⟩ = f := by
  have hpi := Real.pi_ne_zero
  have h3 : √(3 : ℝ) ≠ 0 := by positivity
  set u1 : ℝ := e 0 * (2 * Real.pi) * 32 / (3 * √3) with h1
  set u2 : ℝ := e 1 * (2 * Real.pi) * 32 / (3 * √3) with h2
  set u3 : ℝ := ((f - e 2) * (2 * Real.pi) - 3 * (u1 + u2) / 32) / 3 with hu3
  refine ⟨[0, u1, u2, u3, f - (u1 / 8 + u2 / 8 + u3) / (2 * Real.pi)], rfl, fun a => ?_, ?_⟩
  · have e2 : ∀ a b c : ℝ, ![a, b, c] 2 = c := fun _ _ _ => rfl
    rw [case_field]
    fin_cases a
    · simp [h1]
    · simp [h2]
    · simp only [Fin.reduceFinMk, e2]
      rw [hu3]
      field_simp
      ring
  · rw [case_value]
    ring

/-- the demanded derivatives: the field and, last, the potential -/
noncomputable def caseNames : List (V3 × Idx) := (toV3 ![0, 0, 1], [0]) :: (toV3 ![0, 0, 1], [1]) :: (toV3 ![0, 0, 1], [2]) :: [(toV3 ![0, 0, 1], [])]

theorem case_point : toV3 ![0, 0, 1] = ⟨0, 0, 1⟩ := rfl

theorem case_shims (pinv : Pinv) (hp : IsPinv pinv) (solver : Solver) (hs : Correct solver) (hf : Finds solver) :
    ∃ vs : List (List ℝ), (shims pinv solver knobSys (demand caseNames) [] none).2 = .ok (vs.map some) ∧ vs.length = 4 ∧ ∀ v ∈ vs, v.length = 5 := by
  refine c145_independent pinv hp solver hs hf knobSys caseNames ?_ fun i hi => ?_
  · intro q hq
    simp only [caseNames, List.mem_cons, List.not_mem_nil, or_false, case_point] at hq
    rcases hq with rfl | rfl | rfl | rfl <;> exact ⟨by simp, off_avail case_off _⟩
  · obtain ⟨u, h1, h2, h3⟩ := case_solve (fun a => if a.val = i then 1 else 0) (if 3 = i then 1 else 0)
    refine ⟨u, h1, fun j x l hj => ?_⟩
    match j, hj with
    | 0, hj => simp only [caseNames, List.getElem?_cons_zero, Option.some.injEq, Prod.mk.injEq] at hj; rw [← hj.1, ← hj.2, case_point, h2]; rfl
    | 1, hj =>
      simp only [caseNames, List.getElem?_cons_zero, List.getElem?_cons_succ, Option.some.injEq, Prod.mk.injEq] at hj
      rw [← hj.1, ← hj.2, case_point, h2]; rfl
    | 2, hj =>
      simp only [caseNames, List.getElem?_cons_zero, List.getElem?_cons_succ, Option.some.injEq, Prod.mk.injEq] at hj
      rw [← hj.1, ← hj.2, case_point, h2]; rfl
    | 3, hj =>
      simp only [caseNames, List.getElem?_cons_zero, List.getElem?_cons_succ, Option.some.injEq, Prod.mk.injEq] at hj
      rw [← hj.1, ← hj.2, case_point, h3]
    | j + 4, hj => simp [caseNames] at hj

end Knob

/-- the hypotheses of `c145_knob_partial`, `c145_total_partial` and `c145_stays_partial` are met: `shims` succeeds for the field above three pixels, and with
suitable voltages an ion is in equilibrium there, in spite of the rf drive -/
example : ∃ pinv solver, IsPinv pinv ∧ Correct solver ∧ ∃ (vs : List (Option (List ℝ))) (v w : List ℝ),
    (shims pinv solver knobSys (demand caseNames) [] none).2 = .ok vs ∧ vs[3]? = some (some v) ∧ w.length = knobSys.length ∧
      slopeAt ⟨withDc knobSys w, some 1⟩ ![0, 0, 1] = 0 ∧ ∀ t, slopeAt ⟨withDc knobSys (turned w t v), some 1⟩ ![0, 0, 1] = 0 := by
  obtain ⟨pinv, hp⟩ := exists_isPinv
  obtain ⟨solver, hs, hf⟩ := exists_finds
  obtain ⟨vs, h1, h2, -⟩ := case_shims pinv hp solver hs hf
  have hsplit : ∀ (u : List ℝ) (hu : u.length = knobSys.length) (a : Fin 3), slopeAt ⟨withDc knobSys u, some 1⟩ ![0, 0, 1] a
      = electricalAt (withDc knobSys u) .dc [a] ⟨0, 0, 1⟩ + psT (fun l => 1 * sysTens knobSys .rf l ⟨0, 0, 1⟩) [a] := fun u hu a => by
    show totalAt ⟨withDc knobSys u, some 1⟩ [a] (toV3 ![0, 0, 1]) = _
    rw [case_point, total_split _ 1 [a] (by simp) _ fun _ _ => avail_of_off (off_withDc _ _ case_off) _ _,
      electricalAt_eq _ .dc [a] (by simp) _ (avail_of_off (off_withDc _ _ case_off) _ _)]
    simp only [rf_withDc _ _ hu]
  obtain ⟨w, hw, hw1, -⟩ := case_solve (fun a => - psT (fun l => 1 * sysTens knobSys .rf l ⟨0, 0, 1⟩) [a]) 0
  have hw0 : slopeAt ⟨withDc knobSys w, some 1⟩ ![0, 0, 1] = 0 := by
    funext a
    rw [hsplit w hw a, hw1 a]
    simp
  refine ⟨pinv, solver, hp, hs, vs.map some, vs[3], w, h1, by simp [h2], hw, hw0, fun t => ?_⟩
  exact c145_stays_partial pinv hp solver hs knobSys ![0, 0, 1] [(toV3 ![0, 0, 1], [])] (by simp)
    (fun q hq => by
      rw [List.mem_singleton] at hq
      subst hq
      exact ⟨by simp, by rw [case_point]; exact case_off⟩) (by rw [case_point]; exact case_off) (vs.map some) h1 3 le_rfl vs[3] (by simp [h2]) w hw 1 t hw0

/-- the hypotheses of `c145_small_partial` (and with it of `c145_moves_partial`) are met by the same electrodes without dc voltages -/
example : ∃ pinv solver, IsPinv pinv ∧ Correct solver ∧ ∃ (vs : List (Option (List ℝ))) (v : List ℝ) (R lam : ℝ),
    (shims pinv solver knobSys (demand caseNames) [] none).2 = .ok vs ∧ vs[0]? = some (some v) ∧ 0 < R ∧ 0 < lam ∧
      slopeAt ⟨withDc knobSys [0, 0, 0, 0, 0], some 1⟩ ![0, 0, 1] = 0 ∧ (∀ x ∈ rball ![0, 0, 1] R, offSystem knobSys (toV3 x)) ∧
      Stiff ⟨withDc knobSys [0, 0, 0, 0, 0], some 1⟩ lam (rball ![0, 0, 1] R) := by
  obtain ⟨pinv, hp⟩ := exists_isPinv
  obtain ⟨solver, hs, hf⟩ := exists_finds
  obtain ⟨vs, h1, h2, -⟩ := case_shims pinv hp solver hs hf
  obtain ⟨R1, lam, a1, a2, a3, a4, a5⟩ := twoPixels_well
  obtain ⟨R2, M, b1, -, b3, -⟩ := Expan.bounded knobSys 0 0 (by norm_num) ![0, 0, 1] (by rw [case_point]; exact case_off)
  have hsame : ∀ (l : Idx) (hl : l.length ≤ 4) (x : V3) (_ : offSystem knobSys x) (_ : offSystem twoPixels x),
      totalAt ⟨withDc knobSys [0, 0, 0, 0, 0], some 1⟩ l x = totalAt ⟨twoPixels, some 1⟩ l x := fun l hl x hx hx' => by
    rw [total_split _ 1 l hl x fun _ _ => avail_of_off (off_withDc _ _ hx) _ _, total_split _ 1 l hl x fun _ _ => avail_of_off hx' _ _]
    have e1 : ∀ l, sysTens (withDc knobSys [0, 0, 0, 0, 0]) .rf l x = sysTens twoPixels .rf l x := fun l => by
      rw [rf_withDc _ _ rfl, sysTens_eq, sysTens_eq]
      simp [knobSys, twoPixels, Elec.voltD, Elec.volt]
    have e2 : sysTens (withDc knobSys [0, 0, 0, 0, 0]) .dc l x = sysTens twoPixels .dc l x := by
      rw [twoPixels_dc, withDc_tens]
      simp [knobSys]
    simp only [e1, e2]
  have hin : ∀ x ∈ rball ![0, 0, 1] (min R1 R2), offSystem knobSys (toV3 x) ∧ offSystem twoPixels (toV3 x) ∧ x ∈ rball ![0, 0, 1] R1 := fun x hx =>
    ⟨b3 x (show vlen (x - ![0, 0, 1]) ≤ R2 from le_trans hx (min_le_right R1 R2)), a3 x (show vlen (x - ![0, 0, 1]) ≤ R1 from le_trans hx (min_le_left R1 R2)),
      show vlen (x - ![0, 0, 1]) ≤ R1 from le_trans hx (min_le_left R1 R2)⟩
  have hc := hin ![0, 0, 1] (Rob.center_mem _ (lt_min a1 b1))
  refine ⟨pinv, solver, hp, hs, vs.map some, vs[0], min R1 R2, lam, h1, by simp [h2], lt_min a1 b1, a2, ?_, fun x hx => (hin x hx).1, fun x hx u => ?_⟩
  · funext a
    exact (hsame [a] (by simp) _ hc.1 hc.2.1).trans (congrFun a5 a)
  · simp only [fun a b : Fin 3 => hsame [a, b] (by simp) _ (hin x hx).1 (hin x hx).2.1]
    exact a4 x (hin x hx).2.2 u

/-- Potentials at suitable positions close to each other can be demanded from any polygon electrodes that do not overlap: `shims` finds the knobs, and the
hypotheses of `c145_nearby_partial` are met. -/
theorem c145_polygons (pinv : Pinv) (hp : IsPinv pinv) (solver : Solver) (hs : Correct solver) (hf : Finds solver) (s : List Elec) (h : ℝ)
    (htr : polygonTrap h 0 s) (hsep : separate s) (ha : ∀ e ∈ s, hasArea e) (p : V3) (hz : 0 < p.z) (r : ℝ) (hr : 0 < r) :
    ∃ names : List (V3 × Idx), names.length = s.length ∧ (∀ q ∈ names, closeTo p r q.1 ∧ 0 < q.1.z ∧ q.2 = []) ∧
      ∃ vs : List (List ℝ), (shims pinv solver s (demand names) [] none).2 = .ok (vs.map some) ∧ vs.length = s.length := by
  obtain ⟨x, h1, h2⟩ := c142_prescribe s h 0 htr hsep ha .dc (by decide) p hz (.inl rfl) r hr
  have hx := fun k => h1 k
  refine ⟨List.ofFn fun k => (x k, []), by simp, fun q hq => ?_, ?_⟩
  · obtain ⟨k, rfl⟩ := (List.mem_ofFn' _ _).1 hq
    exact ⟨(hx k).1, (hx k).2.1, rfl⟩
  · obtain ⟨vs, k1, k2, -⟩ := c145_independent pinv hp solver hs hf s (List.ofFn fun k => (x k, [])) (fun q hq => by
        obtain ⟨k, rfl⟩ := (List.mem_ofFn' _ _).1 hq
        exact ⟨by simp, off_avail (Limit.trap_off htr (Limit.images_ne (hx k).2.1 (.inl rfl))) _⟩) fun i hi => by
      obtain ⟨v, hv, -⟩ := h2 fun k => if k.val = i then 1 else 0
      refine ⟨List.ofFn v, by simp, fun j y l hj => ?_⟩
      have hj' : j < s.length := by
        by_contra hc
        rw [List.getElem?_eq_none (by simp; omega)] at hj
        cases hj
      simp only [List.getElem?_ofFn, hj', dif_pos, Option.some.injEq, Prod.mk.injEq] at hj
      rw [← hj.1, ← hj.2]
      have := hv ⟨j, hj'⟩
      have e : withDc s (List.ofFn v) = atVolts .dc s v := by
        apply List.ext_getElem
        · simp [withDc, atVolts]
        · intro k ha hb
          simp [withDc, atVolts, atVolt]
      rw [e]
      exact this
    exact ⟨vs, k1, by simpa using k2⟩

/-- the last demanded derivative is not left alone by the knobs of the others (C38) -/
theorem c145_last_counterexample : ∃ (s : List Elec) (x : V3), ∀ pinv, IsPinv pinv → ∃ solver, Correct solver ∧
    ∃ v w, (shims pinv solver s (demand [(x, [0]), (x, [1])]) [] none).2 = .ok [some v, some w] ∧
      electricalAt (withDc s v) .dc [0] x = 1 ∧ electricalAt (withDc s v) .dc [1] x = 1 := c39_last_objective_leaks

end Electrode
