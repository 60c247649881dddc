import Verif.Spec.Drive
import Verif.Lemmas.Extremes
import Verif.Props.Modes
import Verif.Props.VoltChange

/-
C125: static voltages never confine an ion, and only the rf drive sets the sum of the curvatures.
-/
namespace Electrode
open Spec Real Filter Topology Set MaxP

/-- combination of the dc and the rf tensors -/
noncomputable def dcRf (s : List Elec) (a b : ℝ) (l : Idx) (p : V3) : ℝ := a * sysTens s .dc l p + b * sysTens s .rf l p

theorem sysTens_trace (s : List Elec) (typ : VTyp) (p : V3) : ∑ i, sysTens s typ [i, i] p = 0 :=
  tens_traceless (fun k i p => sysContrib s typ k i p) 2 (by norm_num) p [] [] [] rfl

theorem sysTens_trace3 (s : List Elec) (typ : VTyp) (j : Axis) (p : V3) : ∑ i, sysTens s typ [j, i, i] p = 0 :=
  tens_traceless (fun k i p => sysContrib s typ k i p) 3 (by norm_num) p [j] [] [] rfl

theorem dcRf_step (s : List Elec) (a b : ℝ) (l : Idx) (i : Axis) (hl : l.length ≤ 4) (p : V3) (hp : offSystem s p) :
    HasPartial i (dcRf s a b l) (dcRf s a b (l ++ [i]) p) p :=
  HasDerivAt.add ((sys_step s .dc l i hl p hp).const_mul a) ((sys_step s .rf l i hl p hp).const_mul b)

theorem dcRf_continuous (s : List Elec) (a b : ℝ) : ContinuousOn (fun t => dcRf s a b [] (at3 t)) {t | offSystem s (at3 t)} :=
  smooth_continuous (smooth_add ((sysTens_smooth s .dc [] (by simp)).const_mul a) ((sysTens_smooth s .rf [] (by simp)).const_mul b))

theorem offSystem_open3 (s : List Elec) : IsOpen {t : ℝ × ℝ × ℝ | offSystem s (at3 t)} := by
  have h2 : Continuous fun t : ℝ × ℝ × ℝ => (![t.1, t.2.1, t.2.2] : W) := by
    refine continuous_pi fun i => ?_
    fin_cases i <;> simp <;> fun_prop
  exact (offSystem_open s).preimage h2

theorem dcRf_laplace (s : List Elec) (a b : ℝ) (p : V3) : dcRf s a b [0, 0] p + dcRf s a b [1, 1] p + dcRf s a b [2, 2] p = 0 := by
  have h1 := sysTens_trace s .dc p
  have h2 := sysTens_trace s .rf p
  rw [Fin.sum_univ_three] at h1 h2
  simp only [dcRf]
  linear_combination a * h1 + b * h2

theorem dcRf_region (s : List Elec) (a b : ℝ) {U : Set (ℝ × ℝ × ℝ)} (hU : IsOpen U) (hb : Bornology.IsBounded U)
    (hoff : ∀ t ∈ closure U, offSystem s (at3 t)) {t : ℝ × ℝ × ℝ} (ht : t ∈ U) :
    ∃ r ∈ frontier U, dcRf s a b [] (at3 t) ≤ dcRf s a b [] (at3 r) :=
  frontier_max hU hb (f := dcRf s a b []) (f1 := fun i => dcRf s a b [i]) (f2 := fun i => dcRf s a b [i, i])
    ((dcRf_continuous s a b).mono hoff)
    (fun i p hp => dcRf_step s a b [] i (by simp) p (hoff _ (subset_closure hp)))
    (fun i p hp => dcRf_step s a b [i] i (by simp) p (hoff _ (subset_closure hp)))
    (fun r _ => (dcRf_laplace s a b (at3 r)).ge) ht

theorem dcRf_strong (s : List Elec) (a b : ℝ) {t : ℝ × ℝ × ℝ} (ht : offSystem s (at3 t))
    (hm : IsLocalMax (fun t => dcRf s a b [] (at3 t)) t) : ∀ᶠ r in 𝓝 t, dcRf s a b [] (at3 r) = dcRf s a b [] (at3 t) :=
  strong_max (offSystem_open3 s) (f := dcRf s a b []) (f1 := fun i => dcRf s a b [i]) (f2 := fun i => dcRf s a b [i, i])
    (dcRf_continuous s a b) (fun i p hp => dcRf_step s a b [] i (by simp) p hp)
    (fun i p hp => dcRf_step s a b [i] i (by simp) p hp) (fun r _ => (dcRf_laplace s a b (at3 r)).ge) ht hm

theorem dcRf_neg (s : List Elec) (a b : ℝ) (l : Idx) (p : V3) : dcRf s (-a) (-b) l p = -dcRf s a b l p := by
  unfold dcRf; ring

theorem dcRf_both (s : List Elec) (a b : ℝ) {U : Set (ℝ × ℝ × ℝ)} (hU : IsOpen U) (hb : Bornology.IsBounded U)
    (hoff : ∀ t ∈ closure U, offSystem s (at3 t)) {t : ℝ × ℝ × ℝ} (ht : t ∈ U) :
    (∃ r ∈ frontier U, dcRf s a b [] (at3 r) ≤ dcRf s a b [] (at3 t)) ∧
      ∃ r ∈ frontier U, dcRf s a b [] (at3 t) ≤ dcRf s a b [] (at3 r) := by
  refine ⟨?_, dcRf_region s a b hU hb hoff ht⟩
  obtain ⟨r, hr, h⟩ := dcRf_region s (-a) (-b) hU hb hoff ht
  rw [dcRf_neg, dcRf_neg] at h
  exact ⟨r, hr, by linarith⟩

theorem dcRf_extremum (s : List Elec) (a b : ℝ) {t : ℝ × ℝ × ℝ} (ht : offSystem s (at3 t))
    (hm : IsLocalExtr (fun t => dcRf s a b [] (at3 t)) t) : ∀ᶠ r in 𝓝 t, dcRf s a b [] (at3 r) = dcRf s a b [] (at3 t) := by
  rcases hm with hm | hm
  · have : IsLocalMax (fun t => dcRf s (-a) (-b) [] (at3 t)) t := by
      filter_upwards [hm] with r hr
      simp only [dcRf_neg]
      linarith
    filter_upwards [dcRf_strong s (-a) (-b) ht this] with r hr
    rw [dcRf_neg, dcRf_neg] at hr
    linarith
  · exact dcRf_strong s a b ht hm

theorem electricalAt_dcRf (s : List Elec) (typ : VTyp) : ∃ a b : ℝ, ∀ p, offSystem s p → electricalAt s typ [] p = dcRf s a b [] p := by
  cases typ with
  | dc => exact ⟨1, 0, fun p hp => by rw [electricalAt_eq s .dc [] (by simp) p (avail_of_off hp _ _)]; simp [dcRf]⟩
  | rf => exact ⟨0, 1, fun p hp => by rw [electricalAt_eq s .rf [] (by simp) p (avail_of_off hp _ _)]; simp [dcRf]⟩
  | other =>
    refine ⟨0, 0, fun p hp => ?_⟩
    rw [electricalAt_eq s .other [] (by simp) p (avail_of_off hp _ _), sysTens_eq]
    simp [dcRf, Elec.voltD, Elec.volt]

theorem timeAt_all (s : List Elec) (t : ℝ) (l : Idx) (hl : l.length < 6) (p : V3) (hp : offSystem s p) : timeAt s t l p = dcRf s 1 (cos t) l p := by
  have h1 := electrical_expand_eq s [p] l.length hl .dc (avail_of_off hp _ _)
  have h2 := electrical_expand_eq s [p] l.length hl .rf (avail_of_off hp _ _)
  obtain ⟨r, hr, -, hv⟩ := (c31_time_potential s [p] l.length t true).1 _ _ h1 h2
  have e1 := entry_flatten l.length (fun l => sysTens s .dc l p) l rfl
  have e2 := entry_flatten l.length (fun l => sysTens s .rf l p) l rfl
  have := hv 0 (rowMajor l)
  unfold timeAt
  simp only [hr, entryOf, entry, at2] at this e1 e2 ⊢
  simp only [List.map_cons, List.map_nil, List.getD_cons_zero] at this
  rw [this, e1, e2, dcRf]
  ring

theorem timeAt_dcRf (s : List Elec) (t : ℝ) (p : V3) (hp : offSystem s p) : timeAt s t [] p = dcRf s 1 (cos t) [] p :=
  timeAt_all s t [] (by simp) p hp

/-! ### Static voltages -/

/-- **C125.** In every bounded region off the electrodes, there is no barrier around any position: on the surface of the region
the potential of the electrodes is somewhere not higher, and somewhere not lower, than at the position. -/
theorem c125_region (s : List Elec) (typ : VTyp) (U : Set (ℝ × ℝ × ℝ)) (hU : IsOpen U) (hb : Bornology.IsBounded U)
    (hoff : ∀ t ∈ closure U, offSystem s (at3 t)) (t : ℝ × ℝ × ℝ) (ht : t ∈ U) :
    (∃ r ∈ frontier U, electricalAt s typ [] (at3 r) ≤ electricalAt s typ [] (at3 t)) ∧
      ∃ r ∈ frontier U, electricalAt s typ [] (at3 t) ≤ electricalAt s typ [] (at3 r) := by
  obtain ⟨a, b, h⟩ := electricalAt_dcRf s typ
  obtain ⟨⟨r, hr, h1⟩, r', hr', h2⟩ := dcRf_both s a b hU hb hoff ht
  rw [← h _ (hoff _ (subset_closure ht)), ← h _ (hoff _ (frontier_subset_closure hr))] at h1
  rw [← h _ (hoff _ (subset_closure ht)), ← h _ (hoff _ (frontier_subset_closure hr'))] at h2
  exact ⟨⟨r, hr, h1⟩, r', hr', h2⟩

/-- The same at every instant for `time_potential`. -/
theorem c125_instant (s : List Elec) (τ : ℝ) (U : Set (ℝ × ℝ × ℝ)) (hU : IsOpen U) (hb : Bornology.IsBounded U)
    (hoff : ∀ t ∈ closure U, offSystem s (at3 t)) (t : ℝ × ℝ × ℝ) (ht : t ∈ U) :
    (∃ r ∈ frontier U, timeAt s τ [] (at3 r) ≤ timeAt s τ [] (at3 t)) ∧
      ∃ r ∈ frontier U, timeAt s τ [] (at3 t) ≤ timeAt s τ [] (at3 r) := by
  have h := timeAt_dcRf s τ
  obtain ⟨⟨r, hr, h1⟩, r', hr', h2⟩ := dcRf_both s 1 (cos τ) hU hb hoff ht
  rw [← h _ (hoff _ (subset_closure ht)), ← h _ (hoff _ (frontier_subset_closure hr))] at h1
  rw [← h _ (hoff _ (subset_closure ht)), ← h _ (hoff _ (frontier_subset_closure hr'))] at h2
  exact ⟨⟨r, hr, h1⟩, r', hr', h2⟩

/-- **C125 (Earnshaw).** Off the electrodes, wherever the potential of the electrodes has a local minimum or a local maximum, it is
constant nearby: there is no position where static voltages hold an ion. -/
theorem c125_no_extremum (s : List Elec) (typ : VTyp) (t : ℝ × ℝ × ℝ) (ht : offSystem s (at3 t))
    (hm : IsLocalExtr (fun t => electricalAt s typ [] (at3 t)) t) :
    ∀ᶠ r in 𝓝 t, electricalAt s typ [] (at3 r) = electricalAt s typ [] (at3 t) := by
  obtain ⟨a, b, h⟩ := electricalAt_dcRf s typ
  have e : (fun t => electricalAt s typ [] (at3 t)) =ᶠ[𝓝 t] fun t => dcRf s a b [] (at3 t) := by
    filter_upwards [(offSystem_open3 s).mem_nhds ht] with r hr using h _ hr
  have hm' : IsLocalExtr (fun t => dcRf s a b [] (at3 t)) t := by
    rcases hm with hm | hm
    · exact .inl (IsLocalMin.congr hm e)
    · exact .inr (IsLocalMax.congr hm e)
  filter_upwards [dcRf_extremum s a b ht hm', (offSystem_open3 s).mem_nhds ht] with r h1 h2
  rw [h _ h2, h _ ht, h1]

theorem c125_no_extremum_instant (s : List Elec) (τ : ℝ) (t : ℝ × ℝ × ℝ) (ht : offSystem s (at3 t))
    (hm : IsLocalExtr (fun t => timeAt s τ [] (at3 t)) t) : ∀ᶠ r in 𝓝 t, timeAt s τ [] (at3 r) = timeAt s τ [] (at3 t) := by
  have h := timeAt_dcRf s τ
  have e : (fun t => timeAt s τ [] (at3 t)) =ᶠ[𝓝 t] fun t => dcRf s 1 (cos τ) [] (at3 t) := by
    filter_upwards [(offSystem_open3 s).mem_nhds ht] with r hr using h _ hr
  have hm' : IsLocalExtr (fun t => dcRf s 1 (cos τ) [] (at3 t)) t := by
    rcases hm with hm | hm
    · exact .inl (IsLocalMin.congr hm e)
    · exact .inr (IsLocalMax.congr hm e)
  filter_upwards [dcRf_extremum s 1 (cos τ) ht hm', (offSystem_open3 s).mem_nhds ht] with r h1 h2
  rw [h _ h2, h _ ht, h1]

/-- No position is a strict minimum. -/
theorem c125_no_trap (s : List Elec) (typ : VTyp) (t : ℝ × ℝ × ℝ) (ht : offSystem s (at3 t)) :
    ¬ ∀ᶠ r in 𝓝[≠] t, electricalAt s typ [] (at3 t) < electricalAt s typ [] (at3 r) := by
  intro h
  have hm : IsLocalMin (fun t => electricalAt s typ [] (at3 t)) t := by
    rw [eventually_nhdsWithin_iff] at h
    filter_upwards [h] with r hr
    by_cases e : r = t
    · rw [e]
    · exact (hr e).le
  have h2 := (c125_no_extremum s typ t ht (.inl hm)).filter_mono (nhdsWithin_le_nhds (s := {t}ᶜ))
  obtain ⟨r, h3, h4⟩ := (h.and h2).exists
  exact h3.ne h4.symm

/-- the call fails for all components of an order or for none -/
theorem electricalAt_trace (s : List Elec) (typ : VTyp) (p : V3) : ∑ i, electricalAt s typ [i, i] p = 0 := by
  by_cases ha : AvailAll s 2 typ
  · rw [← sysTens_trace s typ p]
    exact Finset.sum_congr rfl fun i _ => electricalAt_eq s typ [i, i] (by simp) p ha
  · refine Finset.sum_eq_zero fun i _ => ?_
    unfold electricalAt
    rw [show [i, i].length = 2 from rfl, electrical_err s [p] 2 typ true ha]
    rfl

/-- **C125.** The curvatures of the potential of the electrodes along three orthogonal directions add up to zero, for electrodes of
all kinds: what confines along one direction repels along another one. -/
theorem c125_directions (s : List Elec) (typ : VTyp) (p : V3) (e : Fin 3 → Fin 3 → ℝ)
    (he : ∀ j k, ∑ i, e j i * e k i = if j = k then 1 else 0) :
    ∑ j, ∑ i, ∑ k, e j i * electricalAt s typ [i, k] p * e j k = 0 := by
  have hT : (Matrix.of e) * (Matrix.of e).transpose = 1 := by
    ext j k
    rw [Matrix.mul_apply, Matrix.one_apply]
    simpa using he j k
  have hT' := mul_eq_one_comm.1 hT
  have h2 : ∀ i k, ∑ j, e j i * e j k = if i = k then 1 else 0 := by
    intro i k
    have := congrFun (congrFun hT' i) k
    rw [Matrix.mul_apply, Matrix.one_apply] at this
    simpa using this
  calc ∑ j, ∑ i, ∑ k, e j i * electricalAt s typ [i, k] p * e j k
      = ∑ i, ∑ k, electricalAt s typ [i, k] p * ∑ j, e j i * e j k := by
        rw [Finset.sum_comm]
        refine Finset.sum_congr rfl fun i _ => ?_
        rw [Finset.sum_comm]
        refine Finset.sum_congr rfl fun k _ => ?_
        rw [Finset.mul_sum]
        exact Finset.sum_congr rfl fun j _ => by ring
    _ = ∑ i, electricalAt s typ [i, i] p := by
        refine Finset.sum_congr rfl fun i _ => ?_
        simp [h2]
    _ = 0 := electricalAt_trace s typ p

/-! ### With rf -/

theorem psT_trace (T : NArr ℝ) (h : ∀ j, ∑ i, T [j, i, i] = 0) : ∑ k, psT T [k, k] = 2 * ∑ j, ∑ k, T [j, k] ^ 2 := by
  simp only [Fin.sum_univ_three] at h
  simp only [psT, Fin.sum_univ_three]
  linear_combination 2 * T [0] * h 0 + 2 * T [1] * h 1 + 2 * T [2] * h 2

theorem total_trace (s : Sys) (x : V3) (r : List (List ℝ)) (h : s.potential [x] 2 .tot = .ok r) :
    ∃ c, s.rfCoeff = some c ∧ ∑ i, totalAt s [i, i] x = 2 * ∑ j, ∑ k, (c * electricalAt s.els .rf [j, k] x) ^ 2 := by
  obtain ⟨-, ⟨u, hu⟩, w, hw⟩ := (c34_errors s [x] 2 .tot).1 ⟨r, h⟩
  obtain ⟨els, rc⟩ := s
  cases rc with
  | none => unfold pseudoPotential at hw; cases hw
  | some c =>
    refine ⟨c, rfl, ?_⟩
    obtain ⟨-, ha⟩ := pseudo_avail els c [x] 2 w hw
    have had : AvailAll els 2 .dc := by
      by_contra hn
      simp only at hu
      rw [electrical_err els [x] 2 .dc true hn] at hu
      cases hu
    have hs : ∀ i, totalAt ⟨els, some c⟩ [i, i] x = sysTens els .dc [i, i] x + psT (fun l => c * sysTens els .rf l x) [i, i] := by
      intro i
      unfold totalAt
      have h1 := electrical_expand_eq els [x] 2 (by omega) .dc had
      have h2 := pseudo_eq els c [x] 2 (by omega) ha
      obtain ⟨⟨r, hr, _, hv⟩, _⟩ := c34_potential ⟨els, some c⟩ [x] 2 _ _ h1 h2
      rw [show [i, i].length = 2 from rfl, hr]
      have := hv 0 (rowMajor [i, i])
      have e1 := entry_flatten 2 (fun l => sysTens els .dc l x) [i, i] rfl
      have e2 := entry_flatten 2 (psT fun l => c * sysTens els .rf l x) [i, i] rfl
      simp only [entryOf, entry] at e1 e2 ⊢
      simp only [at2, List.map_cons, List.map_nil, List.getD_cons_zero] at this
      rw [this, e1, e2]
    simp only [hs, Finset.sum_add_distrib, sysTens_trace, zero_add]
    rw [psT_trace _ fun j => by rw [← Finset.mul_sum, sysTens_trace3, mul_zero]]
    simp only [electricalAt_eq els .rf [_, _] (by simp) x (ha 2 (by norm_num) (by norm_num))]

/-- **C125.** The three curvatures found by `modes` add up to a number set by the rf field alone: twice the sum of the squares of
the second derivatives of the rf potential, with the factor of `rf_scale`.  It is never negative. -/
theorem c125_modes_sum (eigh : Eigh) (heigh : IsEigh eigh) (argsort : Argsort) (hsort : IsArgsort argsort) (s : Sys) (x : V3)
    (ew : List ℝ) (ev : List (Fin 3 → ℝ)) (h : modes eigh argsort s x true = .ok (ew, ev)) :
    ∃ c, s.rfCoeff = some c ∧ ew.sum = 2 * ∑ j, ∑ k, (c * electricalAt s.els .rf [j, k] x) ^ 2 := by
  obtain ⟨r, hr⟩ := (c43_fails eigh argsort s x true).1 ⟨_, h⟩
  obtain ⟨c, hc, ht⟩ := total_trace s x r hr
  exact ⟨c, hc, by rw [← c43_trace eigh heigh argsort hsort s x ew ev h, ht]⟩

/-- **C125.** Whatever the dc voltages are, the sum of the curvatures at a position is the same. -/
theorem c125_dc_irrelevant (eigh : Eigh) (heigh : IsEigh eigh) (argsort : Argsort) (hsort : IsArgsort argsort) (s : Sys) (dc : List ℝ)
    (x : V3) (ew ew' : List ℝ) (ev ev' : List (Fin 3 → ℝ)) (h : modes eigh argsort s x true = .ok (ew, ev))
    (h' : modes eigh argsort ⟨List.zipWith (fun e v => { e with dc := v }) s.els dc, s.rfCoeff⟩ x true = .ok (ew', ev'))
    (hl : dc.length = s.els.length) : ew'.sum = ew.sum := by
  obtain ⟨c, hc, h1⟩ := c125_modes_sum eigh heigh argsort hsort s x ew ev h
  obtain ⟨c', hc', h2⟩ := c125_modes_sum eigh heigh argsort hsort _ x ew' ev' h'
  have hcc : c' = c := by simp only [hc, Option.some.injEq] at hc'; exact hc'.symm
  have hz : ∀ (L : List Elec) (dc : List ℝ), dc.length = L.length →
      (List.zipWith (fun e v => ({ e with dc := v } : Elec)) L dc).map (fun e => ({ e with dc := 0 } : Elec)) =
        L.map (fun e => ({ e with dc := 0 } : Elec)) := by
    intro L
    induction L with
    | nil => intro dc _; simp
    | cons e L ih =>
      intro dc hd
      cases dc with
      | nil => simp at hd
      | cons v dc => simp [ih dc (by simpa using hd)]
  have hrf := electrical_rf_congr s.els _ (hz s.els dc hl)
  rw [h1, h2, hcc]
  simp only [electricalAt, hrf]

/-- **C125.** If all three curvatures at a position are positive, the rf potential has a second derivative there. -/
theorem c125_needs_rf (eigh : Eigh) (heigh : IsEigh eigh) (argsort : Argsort) (hsort : IsArgsort argsort) (s : Sys) (x : V3)
    (ew : List ℝ) (ev : List (Fin 3 → ℝ)) (h : modes eigh argsort s x true = .ok (ew, ev)) (hp : ∀ w ∈ ew, 0 < w) :
    ∃ j k, electricalAt s.els .rf [j, k] x ≠ 0 := by
  obtain ⟨c, -, h1⟩ := c125_modes_sum eigh heigh argsort hsort s x ew ev h
  obtain ⟨hl, -⟩ := c43_modes eigh heigh argsort hsort s x ew ev h
  by_contra hn
  push Not at hn
  simp only [hn] at h1
  obtain ⟨a, b, d, rfl⟩ := List.length_eq_three.1 hl
  have ha := hp a (by simp)
  have hb := hp b (by simp)
  have hd := hp d (by simp)
  simp at h1
  linarith

theorem total_subharmonic (els : List Elec) (c : ℝ) (p : V3) (hp : offSystem els p) :
    0 ≤ totalAt ⟨els, some c⟩ [0, 0] p + totalAt ⟨els, some c⟩ [1, 1] p + totalAt ⟨els, some c⟩ [2, 2] p := by
  have h1 := electrical_expand_eq els [p] 2 (by norm_num) .dc (avail_of_off hp _ _)
  have h2 := pseudo_eq els c [p] 2 (by norm_num) fun i _ _ => avail_of_off hp i .rf
  obtain ⟨⟨r, hr, -⟩, -⟩ := c34_potential ⟨els, some c⟩ [p] 2 _ _ h1 h2
  obtain ⟨c', hc, h⟩ := total_trace ⟨els, some c⟩ p r hr
  rw [Fin.sum_univ_three] at h
  rw [h]
  positivity

/-- **C125.** The combined potential has its largest value over a bounded region off the electrodes on its surface. -/
theorem c125_total_region (els : List Elec) (c : ℝ) (U : Set (ℝ × ℝ × ℝ)) (hU : IsOpen U) (hb : Bornology.IsBounded U)
    (hoff : ∀ t ∈ closure U, offSystem els (at3 t)) (t : ℝ × ℝ × ℝ) (ht : t ∈ U) :
    ∃ r ∈ frontier U, totalAt ⟨els, some c⟩ [] (at3 t) ≤ totalAt ⟨els, some c⟩ [] (at3 r) :=
  frontier_max hU hb (f1 := fun i => totalAt ⟨els, some c⟩ [i]) (f2 := fun i => totalAt ⟨els, some c⟩ [i, i])
    ((smooth_continuous (total_smooth els c [] (by simp))).mono hoff)
    (fun i p hp => total_step els c [] i (by simp) p (hoff _ (subset_closure hp)))
    (fun i p hp => total_step els c [i] i (by simp) p (hoff _ (subset_closure hp)))
    (fun r hr => total_subharmonic els c _ (hoff _ (subset_closure hr))) ht

/-- **C125.** Where the combined potential has a local maximum it is constant: no position repels an ion in all directions. -/
theorem c125_total_no_maximum (els : List Elec) (c : ℝ) (t : ℝ × ℝ × ℝ) (ht : offSystem els (at3 t))
    (hm : IsLocalMax (fun t => totalAt ⟨els, some c⟩ [] (at3 t)) t) :
    ∀ᶠ r in 𝓝 t, totalAt ⟨els, some c⟩ [] (at3 r) = totalAt ⟨els, some c⟩ [] (at3 t) :=
  strong_max (offSystem_open3 els) (f1 := fun i => totalAt ⟨els, some c⟩ [i]) (f2 := fun i => totalAt ⟨els, some c⟩ [i, i])
    (smooth_continuous (total_smooth els c [] (by simp))) (fun i p hp => total_step els c [] i (by simp) p hp)
    (fun i p hp => total_step els c [i] i (by simp) p hp) (fun r hr => total_subharmonic els c _ hr) ht hm


/-! ### Examples -/

/-- a bounded region above a polygon electrode -/
example : IsOpen (Metric.ball ((0, 0, 1) : ℝ × ℝ × ℝ) (1 / 2)) ∧ Bornology.IsBounded (Metric.ball ((0, 0, 1) : ℝ × ℝ × ℝ) (1 / 2)) ∧
    (∀ t ∈ closure (Metric.ball ((0, 0, 1) : ℝ × ℝ × ℝ) (1 / 2)),
      offSystem [⟨"p", 1, 1, .polygons [[⟨1, 1⟩, ⟨-1, 1⟩, ⟨-1, -1⟩, ⟨1, -1⟩]] 50 0⟩, ⟨"c", 2, 0, .cover 50⟩] (at3 t)) ∧
    ((0, 0, 1) : ℝ × ℝ × ℝ) ∈ Metric.ball ((0, 0, 1) : ℝ × ℝ × ℝ) (1 / 2) := by
  refine ⟨Metric.isOpen_ball, Metric.isBounded_ball, fun t ht => ?_, Metric.mem_ball_self (by norm_num)⟩
  have h1 := Metric.closure_ball_subset_closedBall ht
  rw [Metric.mem_closedBall, Prod.dist_eq, Prod.dist_eq, max_le_iff, max_le_iff, Real.dist_eq, Real.dist_eq, Real.dist_eq] at h1
  have h2 := abs_le.1 h1.2.2
  simp only at h2
  intro e he
  simp only [List.mem_cons, List.not_mem_nil, or_false] at he
  rcases he with rfl | rfl
  · intro m h1 h2 h3
    have : m = 0 := by omega
    subst this
    simp [at3] at h3
    linarith
  · trivial

/-- two pixels driven with rf: above them is a trap -/
noncomputable def twoPixels : List Elec := [⟨"rf", 0, 1, .points [⟨√2, 0⟩, ⟨-√2, 0⟩] [1, 1] 50 0⟩]

theorem twoPixels_contrib (d i : Nat) : sysContrib twoPixels .rf d i ⟨0, 0, 1⟩ =
    pixelComp d i ⟨√2, 0⟩ ⟨0, 0, 1⟩ + pixelComp d i ⟨-√2, 0⟩ ⟨0, 0, 1⟩ := by
  simp [sysContrib, twoPixels, Elec.voltD, Elec.volt, Shape.contrib, pointContrib, images, coverRange, V3.lift]

theorem twoPixels_dc (l : Idx) (p : V3) : sysTens twoPixels .dc l p = 0 := by
  rw [sysTens_eq]; simp [twoPixels, Elec.voltD, Elec.volt]

theorem twoPixels_tens1 (j : Axis) : sysTens twoPixels .rf [j] ⟨0, 0, 1⟩ = 0 := by
  have h1 : entrySel 1 [j] = .one j.val := by revert j; decide
  have h2 : √2 ^ 2 = (2:ℝ) := by norm_num
  have h3 : √(2 + 1) ^ 2 = (3:ℝ) := by norm_num
  unfold sysTens tens
  simp only [List.length_singleton, h1, selVal, twoPixels_contrib]
  fin_cases j <;> simp [pixelComp, pointTerm, pointNum, pointNum1, PExpr.eval, pointEnv, List.range_succ, h2, h3]

theorem twoPixels_tens2 (j k : Axis) : sysTens twoPixels .rf [j, k] ⟨0, 0, 1⟩ =
    pointNorm 2 (√3) 1 * if j = k then ![14, -6, -8] j else 0 := by
  have h2 : √2 ^ 2 = (2:ℝ) := by norm_num
  have h3 : √(2 + 1) ^ 2 = (3:ℝ) := by norm_num
  have h4 : √(2 + 1) = √(3 : ℝ) := by norm_num
  have s00 : entrySel 2 [0, 0] = .one 0 := by decide
  have s01 : entrySel 2 [0, 1] = .one 1 := by decide
  have s02 : entrySel 2 [0, 2] = .one 2 := by decide
  have s10 : entrySel 2 [1, 0] = .one 1 := by decide
  have s11 : entrySel 2 [1, 1] = .one 3 := by decide
  have s12 : entrySel 2 [1, 2] = .one 4 := by decide
  have s20 : entrySel 2 [2, 0] = .one 2 := by decide
  have s21 : entrySel 2 [2, 1] = .one 4 := by decide
  have s22 : entrySel 2 [2, 2] = .lap 0 3 := by decide
  unfold sysTens tens
  simp only [List.length_cons, List.length_nil, Nat.reduceAdd, twoPixels_contrib]
  fin_cases j <;> fin_cases k <;>
    simp [s00, s01, s02, s10, s11, s12, s20, s21, s22, selVal, pixelComp, pointTerm, pointNum, pointNum2, PExpr.eval, pointEnv,
      List.range_succ, h2] <;> (try simp only [h3, h4]) <;> (try norm_num) <;> (try ring)

theorem twoPixels_hessian (c : ℝ) (i k : Axis) : totalAt ⟨twoPixels, some c⟩ [i, k] ⟨0, 0, 1⟩ =
    if i = k then 2 * (c * (pointNorm 2 (√3) 1 * ![14, -6, -8] i)) ^ 2 else 0 := by
  have hoff : offSystem twoPixels ⟨0, 0, 1⟩ := by
    intro e he
    simp only [twoPixels, List.mem_singleton] at he
    subst he
    intro q hq m h1 h2 h3
    have : m = 0 := by omega
    subst this
    simp at h3
  rw [total_split twoPixels c [i, k] (by simp) _ fun d typ => avail_of_off hoff d typ, twoPixels_dc]
  simp only [psT, twoPixels_tens1, twoPixels_tens2, mul_zero, zero_mul, Finset.sum_const_zero, add_zero, zero_add, Fin.sum_univ_three]
  fin_cases i <;> fin_cases k <;> simp <;> ring

/-- All three curvatures of that trap are positive: the hypotheses of `c125_needs_rf` can be met. -/
theorem twoPixels_modes : ∃ (eigh : Eigh) (argsort : Argsort) (ew : List ℝ) (ev : List (Fin 3 → ℝ)), IsEigh eigh ∧ IsArgsort argsort ∧
    modes eigh argsort ⟨twoPixels, some 1⟩ ⟨0, 0, 1⟩ true = .ok (ew, ev) ∧ ∀ w ∈ ew, 0 < w := by
  obtain ⟨eigh, h1⟩ := exists_isEigh
  obtain ⟨argsort, h2⟩ := exists_isArgsort
  have hav : ∀ d typ, AvailAll twoPixels d typ := fun d typ e he _ => by
    simp only [twoPixels, List.mem_singleton] at he
    subst he
    trivial
  have hp : ∃ r, (⟨twoPixels, some 1⟩ : Sys).potential [⟨0, 0, 1⟩] 2 .tot = .ok r :=
    (c34_errors _ _ _ _).2 ⟨by decide, ⟨_, electrical_expand_eq _ _ 2 (by norm_num) .dc (hav _ _)⟩,
      _, pseudo_eq _ 1 _ 2 (by norm_num) fun i _ _ => hav i .rf⟩
  obtain ⟨⟨ew, ev⟩, hr⟩ := (c43_fails eigh argsort _ ⟨0, 0, 1⟩ true).2 hp
  refine ⟨eigh, argsort, ew, ev, h1, h2, hr, ?_⟩
  obtain ⟨hl, -, -, heq, hort⟩ := c43_modes eigh h1 argsort h2 _ _ ew ev hr
  intro w hw
  obtain ⟨j, hj, rfl⟩ := List.getElem_of_mem hw
  have hj3 : j < 3 := by omega
  have hn : 0 < pointNorm 2 (√3) 1 := by simp only [pointNorm]; positivity
  have hne := hort j j hj3 hj3
  have e0 := heq j 0 hj3
  have e1 := heq j 1 hj3
  have e2 := heq j 2 hj3
  simp only [twoPixels_hessian, Fin.sum_univ_three, List.getD_eq_getElem _ _ hj] at e0 e1 e2 hne
  simp at e0 e1 e2 hne
  set v := ev[j]?.getD 0
  set n := pointNorm 2 (√3) 1
  have key : ew[j] = 2 * n ^ 2 * (196 * v 0 ^ 2 + 36 * v 1 ^ 2 + 64 * v 2 ^ 2) := by
    have f0 : 2 * (n * 14) ^ 2 * v 0 = ew[j] * v 0 := by rcases e0 with e | e <;> rw [e]; simp
    have f1 : 2 * (n * 6) ^ 2 * v 1 = ew[j] * v 1 := by rcases e1 with e | e <;> rw [e]; simp
    have f2 : 2 * (n * 8) ^ 2 * v 2 = ew[j] * v 2 := by rcases e2 with e | e <;> rw [e]; simp
    linear_combination (-ew[j]) * hne - v 0 * f0 - v 1 * f1 - v 2 * f2
  rw [key]
  have : 0 < 196 * v 0 ^ 2 + 36 * v 1 ^ 2 + 64 * v 2 ^ 2 := by nlinarith [sq_nonneg (v 0), sq_nonneg (v 1), sq_nonneg (v 2)]
  positivity
end Electrode
