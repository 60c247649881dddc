import Verif.Props.Spherical
import Verif.Lemmas.Legendre
import Mathlib.Analysis.SpecialFunctions.Complex.CircleAddChar
import Mathlib.RingTheory.RootsOfUnity.Complex

/-
C55: `analysis` and `synthesis` of spherical harmonics.
-/
namespace Electrode

/-- orthogonality of the sampled associated Legendre functions: what Gauss-Legendre quadrature with `nmax` nodes gives -/
def Spec.LegendreOrtho (nmax : Nat) (x w : Nat → ℝ) (lpmn : Nat → Nat → ℝ → ℝ) : Prop :=
  ∀ mu n n' : Nat, mu ≤ n → mu ≤ n' → n < nmax → n' < nmax →
    ∑ i ∈ Finset.range nmax, w i * (lpmn mu n (x i) * lpmn mu n' (x i)) =
      if n = n' then 2 / (2 * (n : ℝ) + 1) * (((n + mu).factorial : ℝ) / ((n - mu).factorial : ℝ)) else 0

/-- the spherical harmonic `Y_nm` at `cos theta = x` and `phi`, with the phase of Condon and Shortley (which is in `lpmn`) -/
noncomputable def Spec.ynm (lpmn : Nat → Nat → ℝ → ℝ) (n : Nat) (m : Int) (x phi : ℝ) : ℂ :=
  ((if m < 0 then (-1 : ℝ) ^ m.natAbs else 1) *
    √((2 * (n : ℝ) + 1) / (4 * Real.pi) * ((n - m.natAbs).factorial : ℝ) / ((n + m.natAbs).factorial : ℝ)) *
    lpmn m.natAbs n x : ℝ) * Complex.exp (Complex.I * m * phi)

/-- the azimuth samples, `arange(0, 2*pi, pi/nmax)` -/
noncomputable def Spec.phiSample (nmax k : Nat) : ℝ := Real.pi * k / nmax

/-! ### the discrete Fourier transform -/

theorem exp_sum {N : Nat} (hN : 0 < N) {k c : Nat} (hk : k < N) (hc : c < N) :
    ∑ j ∈ Finset.range N, Complex.exp (2 * Real.pi * Complex.I * (j * k / N)) *
      Complex.exp (-(2 * Real.pi * Complex.I * (j * c / N))) = if k = c then (N : ℂ) else 0 := by
  have hN' : (N : ℂ) ≠ 0 := by exact_mod_cast hN.ne'
  set w := Complex.exp (2 * Real.pi * Complex.I * (((k : ℂ) - c) / N)) with hw
  have hterm : ∀ j ∈ Finset.range N, Complex.exp (2 * Real.pi * Complex.I * (j * k / N)) *
      Complex.exp (-(2 * Real.pi * Complex.I * (j * c / N))) = w ^ j := by
    intro j _
    rw [← Complex.exp_add, hw, ← Complex.exp_nat_mul]
    congr 1
    ring
  rw [Finset.sum_congr rfl hterm]
  split
  · rename_i h
    have : w = 1 := by rw [hw, h]; simp
    rw [this]; simp
  · rename_i h
    have hne : w ≠ 1 := by
      intro h1
      rw [hw, Complex.exp_eq_one_iff] at h1
      obtain ⟨n, hn⟩ := h1
      have h2 : ((k : ℂ) - c) / N = n := by
        have hpi : (2 * Real.pi * Complex.I : ℂ) ≠ 0 := Complex.two_pi_I_ne_zero
        refine mul_left_cancel₀ hpi ?_
        rw [hn]; ring
      rw [div_eq_iff hN'] at h2
      have h3 : ((k : ℤ) - c) = n * N := by exact_mod_cast h2
      have h4 : (N : ℤ) ∣ (k : ℤ) - c := ⟨n, by rw [h3]; ring⟩
      have h5 := Int.eq_zero_of_abs_lt_dvd h4 (abs_lt.2 (by omega))
      omega
    have hpow : w ^ N = 1 := by
      rw [hw, ← Complex.exp_nat_mul, Complex.exp_eq_one_iff]
      refine ⟨(k : ℤ) - c, ?_⟩
      push_cast
      field_simp
    have := mul_neg_geom_sum w N
    rw [hpow, sub_self] at this
    rcases mul_eq_zero.1 this with h0 | h0
    · exact absurd (sub_eq_zero.1 h0).symm hne
    · exact h0

theorem dft_idft {N : Nat} (hN : 0 < N) (g : Nat → ℂ) {c : Nat} (hc : c < N) : dft N (idft N g) c = g c := by
  have hN' : (N : ℂ) ≠ 0 := by exact_mod_cast hN.ne'
  unfold dft idft
  have e : ∀ j ∈ Finset.range N, (1 / (N : ℂ) * ∑ k ∈ Finset.range N, g k * Complex.exp (2 * Real.pi * Complex.I * (j * k / N))) *
      Complex.exp (-(2 * Real.pi * Complex.I * (j * c / N))) =
      ∑ k ∈ Finset.range N, 1 / (N : ℂ) * g k * (Complex.exp (2 * Real.pi * Complex.I * (j * k / N)) *
      Complex.exp (-(2 * Real.pi * Complex.I * (j * c / N)))) := by
    intro j _
    rw [Finset.mul_sum, Finset.sum_mul]
    refine Finset.sum_congr rfl fun k _ => ?_
    ring
  rw [Finset.sum_congr rfl e, Finset.sum_comm]
  have e2 : ∀ k ∈ Finset.range N, ∑ j ∈ Finset.range N, 1 / (N : ℂ) * g k *
      (Complex.exp (2 * Real.pi * Complex.I * (j * k / N)) * Complex.exp (-(2 * Real.pi * Complex.I * (j * c / N)))) =
      if k = c then g k else 0 := by
    intro k hk
    rw [← Finset.mul_sum, exp_sum hN (Finset.mem_range.1 hk) hc]
    split
    · field_simp
    · rw [mul_zero]
  rw [Finset.sum_congr rfl e2, Finset.sum_ite_eq', if_pos (Finset.mem_range.2 hc)]

theorem dft_smul (N : Nat) (f : Nat → ℂ) (z : ℂ) (k : Nat) : dft N (fun j => f j * z) k = dft N f k * z := by
  unfold dft
  rw [Finset.sum_mul]
  refine Finset.sum_congr rfl fun j _ => ?_
  ring

/-! ### what the constructor keeps -/

/-- the row and column decide the frequency -/
theorem freq_col {nmax p q : Nat} (hp : p < nmax) (hq : q < nmax) :
    freqColumn nmax (if p ≤ q then (q, (p : Int)) else (nmax - 1 - q, (p : Int) - nmax)).2 = if p ≤ q then p else nmax + p := by
  by_cases h : p ≤ q
  · rw [if_pos h, if_pos h]
    simp [freqColumn]
  · rw [if_neg h, if_neg h]
    unfold freqColumn
    simp only
    rw [if_pos (by omega)]
    omega

structure SphOk (s : SphHarm) (nmax : Nat) (x w : Nat → ℝ) (lpmn : Nat → Nat → ℝ → ℝ) : Prop where
  size : s.nmax = nmax
  n : ∀ p q, p < nmax → q < nmax → s.n p q = if p ≤ q then q else nmax - 1 - q
  m : ∀ p q, p < nmax → q < nmax → s.m p q = if p ≤ q then (p : Int) else (p : Int) - nmax
  ptmn : ∀ i p q, s.ptmn i p q = √((2 * (s.n p q : ℝ) + 1) / (4 * Real.pi) * ((s.n p q - (s.m p q).natAbs).factorial : ℝ) /
      ((s.n p q + (s.m p q).natAbs).factorial : ℝ)) * (-1 : ℝ) ^ (if s.m p q < 0 then s.m p q else 0) *
      lpmn (s.m p q).natAbs (s.n p q) (x i)
  ptmnw : ∀ i p q, s.ptmnw i p q = s.ptmn i p q * (w i * Real.pi / nmax)

theorem sphInit_ok {old : Bool} {nmax : Nat} {x w : Nat → ℝ} {lpmn : Nat → Nat → ℝ → ℝ} {empty : Int × Int → Nat × Int}
    {s : SphHarm} (h : sphInit old nmax x w lpmn empty = .ok s) : SphOk s nmax x w lpmn := by
  unfold sphInit at h
  simp only at h
  split at h
  · simp at h
  · obtain rfl := Except.ok.inj h
    refine ⟨rfl, fun p q hp hq => ?_, fun p q hp hq => ?_, fun _ _ _ => rfl, fun _ _ _ => rfl⟩
    · show (sphTable nmax empty (p, q)).1 = _
      rw [c54_table nmax empty hp hq]
      split <;> rfl
    · show (sphTable nmax empty (p, q)).2 = _
      rw [c54_table nmax empty hp hq]
      split <;> rfl

theorem SphOk.col {s : SphHarm} {nmax : Nat} {x w : Nat → ℝ} {lpmn : Nat → Nat → ℝ → ℝ} (h : SphOk s nmax x w lpmn) {p q : Nat}
    (hp : p < nmax) (hq : q < nmax) : freqColumn nmax (s.m p q) = if p ≤ q then p else nmax + p := by
  rw [← freq_col hp hq, h.m p q hp hq]
  congr 1
  split <;> rfl

/-- orthonormality of the scaled functions in one row and one triangle of the coefficient array -/
theorem SphOk.ortho {s : SphHarm} {nmax : Nat} {x w : Nat → ℝ} {lpmn : Nat → Nat → ℝ → ℝ} (h : SphOk s nmax x w lpmn)
    (hL : Spec.LegendreOrtho nmax x w lpmn) {p q q' : Nat} (hp : p < nmax) (hq : q < nmax) (hq' : q' < nmax)
    (hsame : p ≤ q ↔ p ≤ q') :
    ∑ i ∈ Finset.range nmax, s.ptmnw i p q * s.ptmn i p q' * (2 * nmax) = if q = q' then 1 else 0 := by
  have hm : s.m p q' = s.m p q := by
    rw [h.m p q hp hq, h.m p q' hp hq']
    by_cases hh : p ≤ q
    · rw [if_pos hh, if_pos (hsame.1 hh)]
    · rw [if_neg hh, if_neg fun hc => hh (hsame.2 hc)]
  set mu := (s.m p q).natAbs with hmu
  set n := s.n p q with hn
  set n' := s.n p q' with hn'
  have hnv := h.n p q hp hq
  have hnv' := h.n p q' hp hq'
  have hmv := h.m p q hp hq
  have hN : (nmax : ℝ) ≠ 0 := by exact_mod_cast (by omega : nmax ≠ 0)
  have hle : mu ≤ n ∧ mu ≤ n' ∧ n < nmax ∧ n' < nmax ∧ (n = n' ↔ q = q') := by
    by_cases hh : p ≤ q
    · rw [if_pos hh] at hnv hmv
      rw [if_pos (hsame.1 hh)] at hnv'
      have := hsame.1 hh
      omega
    · have h2 : ¬ p ≤ q' := fun hc => hh (hsame.2 hc)
      rw [if_neg hh] at hnv hmv
      rw [if_neg h2] at hnv'
      omega
  obtain ⟨h1, h2, h3, h4, h5⟩ := hle
  have hO := hL mu n n' h1 h2 h3 h4
  set b := (2 * (n : ℝ) + 1) / (4 * Real.pi) * ((n - mu).factorial : ℝ) / ((n + mu).factorial : ℝ) with hb
  set b' := (2 * (n' : ℝ) + 1) / (4 * Real.pi) * ((n' - mu).factorial : ℝ) / ((n' + mu).factorial : ℝ) with hb'
  set e := (-1 : ℝ) ^ (if s.m p q < 0 then s.m p q else 0) with he
  have he2 : e * e = 1 := by
    rw [he, ← zpow_add₀ (by norm_num : (-1 : ℝ) ≠ 0)]
    exact Even.neg_one_zpow ⟨_, rfl⟩
  have hterm : ∀ i ∈ Finset.range nmax, s.ptmnw i p q * s.ptmn i p q' * (2 * nmax) =
      √b * √b' * 2 * Real.pi * (w i * (lpmn mu n (x i) * lpmn mu n' (x i))) := by
    intro i _
    rw [h.ptmnw, h.ptmn i p q, h.ptmn i p q', hm]
    simp only [← hmu, ← hn, ← hn', ← hb, ← hb', ← he]
    have hu : (nmax : ℝ)⁻¹ * nmax = 1 := inv_mul_cancel₀ hN
    linear_combination (√b * √b' * 2 * Real.pi * w i * lpmn mu n (x i) * lpmn mu n' (x i)) * he2 +
      (√b * √b' * 2 * Real.pi * w i * lpmn mu n (x i) * lpmn mu n' (x i)) * (e * e) * hu
  rw [Finset.sum_congr rfl hterm, ← Finset.mul_sum, hO]
  by_cases hnn : n = n'
  · rw [if_pos hnn, if_pos (h5.1 hnn)]
    have hbb : b = b' := by rw [hb, hb', hnn]
    have hpos : 0 ≤ b := by rw [hb]; positivity
    rw [← hbb, Real.mul_self_sqrt hpos, hb]
    have f1 : ((n - mu).factorial : ℝ) ≠ 0 := by exact_mod_cast Nat.factorial_ne_zero _
    have f2 : ((n + mu).factorial : ℝ) ≠ 0 := by exact_mod_cast Nat.factorial_ne_zero _
    have f3 : (2 * (n : ℝ) + 1) ≠ 0 := by positivity
    have := Real.pi_ne_zero
    field_simp
    norm_num
  · rw [if_neg hnn, if_neg fun hc => hnn (h5.2 hc), mul_zero]

/-- C55: `analysis(synthesis(a)) = a`, for every size and every coefficient array -/
theorem c55_roundtrip {old : Bool} {nmax : Nat} {x w : Nat → ℝ} {lpmn : Nat → Nat → ℝ → ℝ} {empty : Int × Int → Nat × Int}
    {s : SphHarm} (hs : sphInit old nmax x w lpmn empty = .ok s) (hL : Spec.LegendreOrtho nmax x w lpmn) (a : Arr2)
    (hr : a.rows = nmax) (hc : a.cols = nmax) :
    ∃ f a', s.synthesis a = .ok f ∧ s.analysis f = .ok a' ∧ a'.rows = nmax ∧ a'.cols = nmax ∧
      ∀ p < nmax, ∀ q < nmax, a'.get p q = a.get p q := by
  have h := sphInit_ok hs
  have hsz := h.size
  refine ⟨_, _, by unfold SphHarm.synthesis; rw [if_pos ⟨by omega, by omega⟩],
    by unfold SphHarm.analysis; rw [if_pos ⟨rfl, rfl⟩], hsz, hsz, ?_⟩
  intro p hp q hq
  simp only [hsz]
  have hpos : 0 < 2 * nmax := by omega
  have hcol := h.col hp hq
  have hclt : freqColumn nmax (s.m p q) < 2 * nmax := by rw [hcol]; split <;> omega
  have hft : ∀ i, dft (2 * nmax) (fun k => idft (2 * nmax) (s.synthRow a i) k * nmax * 2) (freqColumn nmax (s.m p q)) =
      s.synthRow a i (freqColumn nmax (s.m p q)) * (2 * nmax) := by
    intro i
    have : (fun k => idft (2 * nmax) (s.synthRow a i) k * nmax * 2) =
        fun k => idft (2 * nmax) (s.synthRow a i) k * (2 * nmax : ℂ) := by funext k; ring
    rw [this, dft_smul, dft_idft hpos _ hclt]
  have hrow : ∀ i, s.synthRow a i (freqColumn nmax (s.m p q)) =
      ∑ q' ∈ Finset.range nmax, if (p ≤ q ↔ p ≤ q') then (s.ptmn i p q' : ℂ) * a.get p q' else 0 := by
    intro i
    unfold SphHarm.synthRow
    rw [hcol, hsz]
    by_cases hh : p ≤ q
    · rw [if_pos hh, if_pos hp]
      refine Finset.sum_congr rfl fun q' _ => ?_
      simp [hh]
    · rw [if_neg hh, if_neg (by omega)]
      refine Finset.sum_congr rfl fun q' _ => ?_
      rw [show nmax + p - nmax = p by omega]
      simp [hh]
  calc ∑ i ∈ Finset.range nmax, (s.ptmnw i p q : ℂ) *
        dft (2 * nmax) (fun k => idft (2 * nmax) (s.synthRow a i) k * nmax * 2) (freqColumn nmax (s.m p q))
      = ∑ i ∈ Finset.range nmax, ∑ q' ∈ Finset.range nmax, (if (p ≤ q ↔ p ≤ q') then
          ((s.ptmnw i p q * s.ptmn i p q' * (2 * nmax) : ℝ) : ℂ) * a.get p q' else 0) := by
        refine Finset.sum_congr rfl fun i _ => ?_
        rw [hft, hrow, Finset.sum_mul, Finset.mul_sum]
        refine Finset.sum_congr rfl fun q' _ => ?_
        split
        · push_cast; ring
        · ring
    _ = ∑ q' ∈ Finset.range nmax, if q = q' then a.get p q' else 0 := by
        rw [Finset.sum_comm]
        refine Finset.sum_congr rfl fun q' hq' => ?_
        by_cases hsame : p ≤ q ↔ p ≤ q'
        · simp only [if_pos hsame]
          rw [← Finset.sum_mul, ← Complex.ofReal_sum, h.ortho hL hp hq (Finset.mem_range.1 hq') hsame]
          split <;> simp
        · simp only [if_neg hsame, Finset.sum_const_zero]
          rw [if_neg]
          rintro rfl
          exact hsame Iff.rfl
    _ = a.get p q := by rw [Finset.sum_ite_eq, if_pos (Finset.mem_range.2 hq)]

/-- the scaled functions times the frequency factor are the spherical harmonics -/
theorem SphOk.ynm {s : SphHarm} {nmax : Nat} {x w : Nat → ℝ} {lpmn : Nat → Nat → ℝ → ℝ} (h : SphOk s nmax x w lpmn)
    {p q : Nat} (hp : p < nmax) (hq : q < nmax) (i k : Nat) :
    (s.ptmn i p q : ℂ) * Complex.exp (2 * Real.pi * Complex.I * (k * (freqColumn nmax (s.m p q) : ℕ) / (2 * nmax : ℕ))) =
      Spec.ynm lpmn (s.n p q) (s.m p q) (x i) (Spec.phiSample nmax k) := by
  have hN : (nmax : ℂ) ≠ 0 := by exact_mod_cast (by omega : nmax ≠ 0)
  have hexp : Complex.exp (2 * Real.pi * Complex.I * (k * (freqColumn nmax (s.m p q) : ℕ) / (2 * nmax : ℕ))) =
      Complex.exp (Complex.I * (s.m p q) * (Spec.phiSample nmax k)) := by
    unfold Spec.phiSample
    rw [h.col hp hq, h.m p q hp hq]
    by_cases hh : p ≤ q
    · rw [if_pos hh, if_pos hh]
      congr 1
      push_cast
      field_simp
    · rw [if_neg hh, if_neg hh, Complex.exp_eq_exp_iff_exists_int]
      refine ⟨k, ?_⟩
      push_cast
      field_simp
      ring
  rw [hexp]
  unfold Spec.ynm
  congr 2
  rw [h.ptmn]
  have hsign : (-1 : ℝ) ^ (if s.m p q < 0 then s.m p q else 0) = if s.m p q < 0 then (-1 : ℝ) ^ (s.m p q).natAbs else 1 := by
    split
    · rename_i hneg
      have : s.m p q = -((s.m p q).natAbs : ℤ) := by omega
      conv_lhs => rw [this]
      rw [zpow_neg, zpow_natCast, ← inv_pow]
      norm_num
    · simp
  rw [hsign]
  ring

theorem sum_places {nmax : Nat} (F : Nat → Int → Int → Int → ℂ) (G : Nat → Nat → ℂ)
    (h : ∀ n m p q, (n, m, p, q) ∈ sphIndices nmax → F n m p q = G p.toNat q.toNat) :
    ((sphIndices nmax).map fun e => F e.1 e.2.1 e.2.2.1 e.2.2.2).sum =
      ∑ p ∈ Finset.range nmax, ∑ q ∈ Finset.range nmax, G p q := by
  have h1 : (sphIndices nmax).map (fun e => F e.1 e.2.1 e.2.2.1 e.2.2.2) =
      ((sphIndices nmax).map fun e => e.2.2).map fun z : Int × Int => G z.1.toNat z.2.toNat := by
    rw [List.map_map]
    exact List.map_congr_left fun e he => h e.1 e.2.1 e.2.2.1 e.2.2.2 he
  obtain ⟨hnd, hmem⟩ := c54_places nmax
  rw [h1, ← List.sum_toFinset _ hnd, ← Finset.sum_product']
  refine Finset.sum_nbij' (fun z : Int × Int => (z.1.toNat, z.2.toNat)) (fun z : Nat × Nat => ((z.1 : Int), (z.2 : Int)))
    ?_ ?_ ?_ ?_ ?_
  · intro z hz
    have := (hmem z.1 z.2).1 (List.mem_toFinset.1 hz)
    exact Finset.mem_product.2 ⟨Finset.mem_range.2 (by simp only; omega), Finset.mem_range.2 (by simp only; omega)⟩
  · intro z hz
    have h1 := Finset.mem_range.1 (Finset.mem_product.1 hz).1
    have h2 := Finset.mem_range.1 (Finset.mem_product.1 hz).2
    exact List.mem_toFinset.2 ((hmem _ _).2 (by omega))
  · intro z hz
    have := (hmem z.1 z.2).1 (List.mem_toFinset.1 hz)
    refine Prod.ext ?_ ?_ <;> simp only <;> omega
  · intro z _
    simp
  · intro z _
    rfl

/-- C55: `synthesis` is the sum of the spherical harmonics with the given coefficients, at the sampled angles -/
theorem c55_synthesis {old : Bool} {nmax : Nat} {x w : Nat → ℝ} {lpmn : Nat → Nat → ℝ → ℝ} {empty : Int × Int → Nat × Int}
    {s : SphHarm} (hs : sphInit old nmax x w lpmn empty = .ok s) (a : Arr2) (hr : a.rows = nmax) (hc : a.cols = nmax) :
    ∃ f, s.synthesis a = .ok f ∧ f.rows = nmax ∧ f.cols = 2 * nmax ∧ ∀ i < nmax, ∀ k < 2 * nmax,
      f.get i k = ((sphIndices nmax).map fun e =>
        a.get e.2.2.1.toNat e.2.2.2.toNat * Spec.ynm lpmn e.1 e.2.1 (x i) (Spec.phiSample nmax k)).sum := by
  have h := sphInit_ok hs
  have hsz := h.size
  refine ⟨_, by unfold SphHarm.synthesis; rw [if_pos ⟨by omega, by omega⟩], hsz, by simp only [hsz], ?_⟩
  intro i hi k hk
  simp only [hsz]
  have hN : (nmax : ℂ) ≠ 0 := by exact_mod_cast (by omega : nmax ≠ 0)
  set E : Nat → ℂ := fun c => Complex.exp (2 * Real.pi * Complex.I * (k * (c : ℕ) / (2 * nmax : ℕ))) with hE
  rw [sum_places (fun n m p q => a.get p.toNat q.toNat * Spec.ynm lpmn n m (x i) (Spec.phiSample nmax k))
    (fun p q => a.get p q * ((s.ptmn i p q : ℂ) * E (freqColumn nmax (s.m p q))))]
  · have e1 : idft (2 * nmax) (s.synthRow a i) k * nmax * 2 = ∑ c ∈ Finset.range (nmax + nmax), s.synthRow a i c * E c := by
      unfold idft
      rw [two_mul nmax]
      simp only [hE]
      push_cast
      rw [show ((nmax : ℂ) + nmax) = 2 * nmax by ring]
      field_simp
    rw [e1, Finset.sum_range_add, ← Finset.sum_add_distrib]
    refine Finset.sum_congr rfl fun p hp => ?_
    have hp := Finset.mem_range.1 hp
    unfold SphHarm.synthRow
    simp only [hsz]
    rw [if_pos hp, if_neg (by omega), show nmax + p - nmax = p by omega, Finset.sum_mul, Finset.sum_mul,
      ← Finset.sum_add_distrib]
    refine Finset.sum_congr rfl fun q hq => ?_
    have hq := Finset.mem_range.1 hq
    rw [h.col hp hq]
    by_cases hh : p ≤ q
    · rw [if_pos hh, if_neg (by omega), if_pos hh]; ring
    · rw [if_neg hh, if_pos (by omega), if_neg hh]; ring
  · intro n m p q he
    have hpl := ((c54_places nmax).2 p q).1 (List.mem_map.2 ⟨_, he, rfl⟩)
    rw [h.ynm (by omega) (by omega) i k]
    have hmem := (c54_members nmax n m p q).1 he
    have hab := abs_le.1 hmem.2.1
    have hm : s.m p.toNat q.toNat = m := by
      rw [h.m _ _ (by omega) (by omega)]
      split <;> omega
    have hn : s.n p.toNat q.toNat = n := by
      rw [h.n _ _ (by omega) (by omega)]
      split <;> omega
    rw [hm, hn]

/-- C55: `analysis` gives the quadrature sums of the function with the conjugate spherical harmonics -/
theorem c55_analysis {old : Bool} {nmax : Nat} {x w : Nat → ℝ} {lpmn : Nat → Nat → ℝ → ℝ} {empty : Int × Int → Nat × Int}
    {s : SphHarm} (hs : sphInit old nmax x w lpmn empty = .ok s) (f : Arr2) (hr : f.rows = nmax) (hc : f.cols = 2 * nmax) :
    ∃ a, s.analysis f = .ok a ∧ a.rows = nmax ∧ a.cols = nmax ∧ ∀ n m p q, (n, m, p, q) ∈ sphIndices nmax →
      a.get p.toNat q.toNat = ∑ i ∈ Finset.range nmax, ∑ k ∈ Finset.range (2 * nmax), ((w i * (Real.pi / nmax) : ℝ) : ℂ) *
        (f.get i k * (starRingEnd ℂ) (Spec.ynm lpmn n m (x i) (Spec.phiSample nmax k))) := by
  have h := sphInit_ok hs
  have hsz := h.size
  refine ⟨_, by unfold SphHarm.analysis; rw [if_pos ⟨by omega, by omega⟩], hsz, hsz, ?_⟩
  intro n m p q he
  have hpl := ((c54_places nmax).2 p q).1 (List.mem_map.2 ⟨_, he, rfl⟩)
  have hmem := (c54_members nmax n m p q).1 he
  have hab := abs_le.1 hmem.2.1
  have hm : s.m p.toNat q.toNat = m := by
    rw [h.m _ _ (by omega) (by omega)]
    split <;> omega
  have hn : s.n p.toNat q.toNat = n := by
    rw [h.n _ _ (by omega) (by omega)]
    split <;> omega
  simp only [hsz]
  refine Finset.sum_congr rfl fun i _ => ?_
  unfold dft
  rw [Finset.mul_sum]
  refine Finset.sum_congr rfl fun k _ => ?_
  have hy := h.ynm (p := p.toNat) (q := q.toNat) (by omega) (by omega) i k
  rw [hm, hn] at hy
  rw [← hy, h.ptmnw, map_mul, Complex.conj_ofReal, ← Complex.exp_conj, hm]
  have : (starRingEnd ℂ) (2 * Real.pi * Complex.I * (k * (freqColumn nmax m : ℕ) / (2 * nmax : ℕ))) =
      -(2 * Real.pi * Complex.I * (k * (freqColumn nmax m : ℕ) / (2 * nmax : ℕ))) := by
    simp only [map_mul, map_div₀, Complex.conj_I, Complex.conj_ofReal, map_natCast, map_ofNat]
    ring
  rw [this]
  push_cast
  ring

/-- C55: with numpy 1.12 or newer the constructor raises `ValueError` for every size above one, so that neither method can be
used -/
theorem c55_new_numpy {nmax : Nat} (hn : 2 ≤ nmax) (x w : Nat → ℝ) (lpmn : Nat → Nat → ℝ → ℝ) (empty : Int × Int → Nat × Int) :
    sphInit false nmax x w lpmn empty = .error .valueError := by
  unfold sphInit
  simp only
  rw [if_pos]
  refine ⟨trivial, List.any_eq_true.2 ⟨1, List.mem_range.2 (by omega), List.any_eq_true.2 ⟨0, List.mem_range.2 (by omega), ?_⟩⟩⟩
  refine decide_eq_true ?_
  rw [c54_table nmax empty (by omega) (by omega), if_neg (by omega)]
  simp only
  omega

/-- C55: with an older numpy it succeeds -/
theorem c55_old_numpy (nmax : Nat) (x w : Nat → ℝ) (lpmn : Nat → Nat → ℝ → ℝ) (empty : Int × Int → Nat × Int) :
    ∃ s, sphInit true nmax x w lpmn empty = .ok s := by
  unfold sphInit
  simp

/-- C55: arrays of other shapes are refused -/
theorem c55_shapes {s : SphHarm} (a : Arr2) :
    (¬ (a.rows = s.nmax ∧ a.cols = s.nmax) → s.synthesis a = .error .assertionError) ∧
    (¬ (a.rows = s.nmax ∧ a.cols = 2 * s.nmax) → s.analysis a = .error .assertionError) :=
  ⟨fun h => if_neg h, fun h => if_neg h⟩

/-! ### Gauss-Legendre quadrature -/

/-- what `scipy.special.p_roots(nmax)` promises: nodes in `[-1, 1]` and weights that integrate polynomials of degree below
`2*nmax` exactly -/
structure Spec.GaussLegendre (nmax : Nat) (x w : Nat → ℝ) : Prop where
  inside : ∀ i < nmax, -1 ≤ x i ∧ x i ≤ 1
  exact : ∀ p : Polynomial ℝ, p.natDegree < 2 * nmax →
    ∑ i ∈ Finset.range nmax, w i * p.eval (x i) = ∫ t in (-1 : ℝ)..1, p.eval t

/-- what `scipy.special.lpmn` promises: the associated Legendre functions with the phase of Condon and Shortley -/
noncomputable def Spec.assocLegendre (mu n : Nat) (x : ℝ) : ℝ :=
  (-1) ^ mu * √(1 - x ^ 2) ^ mu * (Polynomial.derivative^[mu] (Spec.legendre n)).eval x

/-- the sampled associated Legendre functions are orthogonal, for every size -/
theorem c55_legendre {nmax : Nat} {x w : Nat → ℝ} (h : Spec.GaussLegendre nmax x w) :
    Spec.LegendreOrtho nmax x w Spec.assocLegendre := by
  have hle : ∀ mu n n' : Nat, mu ≤ n → n ≤ n' → n' < nmax →
      ∑ i ∈ Finset.range nmax, w i * (Spec.assocLegendre mu n (x i) * Spec.assocLegendre mu n' (x i)) =
        if n = n' then 2 / (2 * (n : ℝ) + 1) * (((n + mu).factorial : ℝ) / ((n - mu).factorial : ℝ)) else 0 := by
    intro mu n n' h1 h2 h3
    rw [← assoc_pint h1 h2]
    unfold pint
    rw [← h.exact]
    · refine Finset.sum_congr rfl fun i hi => ?_
      obtain ⟨ha, hb⟩ := h.inside i (Finset.mem_range.1 hi)
      have hsq : √(1 - x i ^ 2) ^ 2 = 1 - x i ^ 2 := Real.sq_sqrt (by nlinarith)
      have hone : ((-1 : ℝ) ^ mu) * (-1) ^ mu = 1 := by rw [← mul_pow]; norm_num
      have hpow : √(1 - x i ^ 2) ^ mu * √(1 - x i ^ 2) ^ mu = (1 - x i ^ 2) ^ mu := by rw [← mul_pow, ← sq, hsq]
      unfold Spec.assocLegendre assoc
      rw [Polynomial.eval_mul, Polynomial.eval_mul, Polynomial.eval_pow, Polynomial.eval_sub, Polynomial.eval_one,
        Polynomial.eval_pow, Polynomial.eval_X, ← hpow]
      set A := (Polynomial.derivative^[mu] (Spec.legendre n)).eval (x i)
      set B := (Polynomial.derivative^[mu] (Spec.legendre n')).eval (x i)
      set r := √(1 - x i ^ 2) ^ mu
      linear_combination (w i * r * r * A * B) * hone
    · have d1 := assoc_degree h1
      have d2 := iterate_degree (k := mu) _ (legendre_degree n')
      have := Polynomial.natDegree_mul_le (p := assoc mu n) (q := Polynomial.derivative^[mu] (Spec.legendre n'))
      omega
  intro mu n n' h1 h2 h3 h4
  rcases Nat.le_total n n' with hh | hh
  · exact hle mu n n' h1 hh h4
  · have := hle mu n' n h2 hh h3
    have e : ∑ i ∈ Finset.range nmax, w i * (Spec.assocLegendre mu n (x i) * Spec.assocLegendre mu n' (x i)) =
        ∑ i ∈ Finset.range nmax, w i * (Spec.assocLegendre mu n' (x i) * Spec.assocLegendre mu n (x i)) :=
      Finset.sum_congr rfl fun i _ => by ring
    rw [e, this]
    by_cases hn : n = n'
    · rw [if_pos hn, if_pos hn.symm, hn]
    · rw [if_neg hn, if_neg fun hc => hn hc.symm]

/-- C55: given what scipy documents of its two functions, `analysis(synthesis(a)) = a` for every size and every coefficient
array -/
theorem c55_identity {old : Bool} {nmax : Nat} {x w : Nat → ℝ} {empty : Int × Int → Nat × Int} {s : SphHarm}
    (hg : Spec.GaussLegendre nmax x w) (hs : sphInit old nmax x w Spec.assocLegendre empty = .ok s) (a : Arr2)
    (hr : a.rows = nmax) (hc : a.cols = nmax) :
    ∃ f a', s.synthesis a = .ok f ∧ s.analysis f = .ok a' ∧ a'.rows = nmax ∧ a'.cols = nmax ∧
      ∀ p < nmax, ∀ q < nmax, a'.get p q = a.get p q :=
  c55_roundtrip hs (c55_legendre hg) a hr hc

/-- nodes and weights for two points: `±1/√3`, both with weight one -/
theorem exGauss : Spec.GaussLegendre 2 (fun i => if i = 0 then -(1 / √3) else 1 / √3) (fun _ => 1) := by
  have h3 : (1 / √3 : ℝ) ^ 2 = 1 / 3 := by rw [div_pow, Real.sq_sqrt (by norm_num)]; norm_num
  have hpos : (0 : ℝ) < 1 / √3 := by positivity
  have hle : (1 / √3 : ℝ) ≤ 1 := by nlinarith
  refine ⟨fun i _ => ?_, fun p hp => ?_⟩
  · show -1 ≤ (if i = 0 then -(1 / √3) else 1 / √3) ∧ (if i = 0 then -(1 / √3) else 1 / √3) ≤ (1 : ℝ)
    split <;> constructor <;> linarith
  · have he : ∀ t : ℝ, p.eval t = p.coeff 0 + p.coeff 1 * t + p.coeff 2 * t ^ 2 + p.coeff 3 * t ^ 3 := by
      intro t
      rw [Polynomial.eval_eq_sum_range' (n := 4) (by omega)]
      simp [Finset.sum_range_succ]
    have hint : ∫ t in (-1 : ℝ)..1, p.eval t = 2 * p.coeff 0 + 2 / 3 * p.coeff 2 := by
      have hd : ∀ t : ℝ, HasDerivAt (fun t => p.coeff 0 * t + p.coeff 1 * (t ^ 2 / 2) + p.coeff 2 * (t ^ 3 / 3) +
          p.coeff 3 * (t ^ 4 / 4)) (p.eval t) t := by
        intro t
        have h1 := ((hasDerivAt_id t).const_mul (p.coeff 0)).add (((hasDerivAt_pow 2 t).div_const 2).const_mul (p.coeff 1))
        have h2 := (h1.add (((hasDerivAt_pow 3 t).div_const 3).const_mul (p.coeff 2))).add
          (((hasDerivAt_pow 4 t).div_const 4).const_mul (p.coeff 3))
        refine h2.congr_deriv ?_
        rw [he]
        push_cast
        ring
      rw [intervalIntegral.integral_eq_sub_of_hasDerivAt (fun t _ => hd t) (pint_integrable p)]
      ring
    rw [hint, Finset.sum_range_succ, Finset.sum_range_one, he, he]
    simp only [if_true, one_ne_zero, if_false]
    linear_combination 2 * p.coeff 2 * h3

example : ∃ s, sphInit true 2 (fun i => if i = 0 then -(1 / √3) else 1 / √3) (fun _ => 1) Spec.assocLegendre (fun _ => (0, 0)) =
    .ok s ∧ ∀ a : Arr2, a.rows = 2 → a.cols = 2 → ∃ f a', s.synthesis a = .ok f ∧ s.analysis f = .ok a' ∧ a'.get 1 0 = a.get 1 0 := by
  obtain ⟨s, hs⟩ := c55_old_numpy 2 (fun i => if i = 0 then -(1 / √3) else 1 / √3) (fun _ => 1) Spec.assocLegendre (fun _ => (0, 0))
  refine ⟨s, hs, fun a h1 h2 => ?_⟩
  obtain ⟨f, a', e1, e2, -, -, e3⟩ := c55_identity exGauss hs a h1 h2
  exact ⟨f, a', e1, e2, e3 1 (by norm_num) 0 (by norm_num)⟩

end Electrode
