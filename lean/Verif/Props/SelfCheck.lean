import Verif.Model.SelfCheck
import Verif.Props.Harmonics
import Verif.Props.MathieuSol

/-
C116: the self-checks of the spherical harmonics and of the Mathieu coefficients.
-/
namespace Electrode

/-! ### spherical harmonics -/

/-- the sampled inner product of two spherical harmonics: Gauss-Legendre weights in `cos theta`, equal steps `pi/nmax` in `phi` -/
noncomputable def Spec.sphInner (nmax : Nat) (x w : Nat → ℝ) (lpmn : Nat → Nat → ℝ → ℝ) (n : Nat) (m : Int) (n' : Nat) (m' : Int) : ℂ :=
  ∑ i ∈ Finset.range nmax, ∑ k ∈ Finset.range (2 * nmax), ((w i * (Real.pi / nmax) : ℝ) : ℂ) *
    (Spec.ynm lpmn n m (x i) (Spec.phiSample nmax k) * (starRingEnd ℂ) (Spec.ynm lpmn n' m' (x i) (Spec.phiSample nmax k)))

/-- a pair of indices of a spherical harmonic below the order `nmax` -/
def Spec.Harmonic (nmax n : Nat) (m : Int) : Prop := n < nmax ∧ |m| ≤ n

theorem pyAssert_ok {b : Prop} : pyAssert b = .ok () ↔ b := by
  unfold pyAssert
  split_ifs with h <;> simp [h]

theorem forM_ok {α : Type} (l : List α) (f : α → Py Unit) : l.forM f = .ok () ↔ ∀ a ∈ l, f a = .ok () := by
  induction l with
  | nil => simp [List.forM, pure, Except.pure]
  | cons a l ih =>
    rw [show (a :: l).forM f = (f a >>= fun _ => l.forM f) from rfl]
    cases h : f a with
    | error e => simp [bind, Except.bind, h]
    | ok u => simpa [bind, Except.bind, h] using ih

theorem sphPhi_eq (nmax k : Nat) : sphPhi nmax k = Spec.phiSample nmax k := by
  unfold sphPhi Spec.phiSample; ring

theorem SphOk.index {s : SphHarm} {nmax : Nat} {x w : Nat → ℝ} {lpmn : Nat → Nat → ℝ → ℝ} (h : SphOk s nmax x w lpmn) {n : Nat} {m p q : Int}
    (he : (n, m, p, q) ∈ sphIndices nmax) : p.toNat < nmax ∧ q.toNat < nmax ∧ s.m p.toNat q.toNat = m ∧ s.n p.toNat q.toNat = n := by
  have hpl := ((c54_places nmax).2 p q).1 (List.mem_map.2 ⟨_, he, rfl⟩)
  have hmem := (c54_members nmax n m p q).1 he
  have hab := abs_le.1 hmem.2.1
  refine ⟨by omega, by omega, ?_, ?_⟩
  · rw [h.m _ _ (by omega) (by omega)]
    split <;> omega
  · rw [h.n _ _ (by omega) (by omega)]
    split <;> omega

theorem SphOk.samples {s : SphHarm} {nmax : Nat} {x w : Nat → ℝ} {lpmn : Nat → Nat → ℝ → ℝ} (h : SphOk s nmax x w lpmn) {n : Nat} {m p q : Int}
    (he : (n, m, p, q) ∈ sphIndices nmax) (i k : Nat) :
    (s.sampled s.ptmn m p q).get i k = Spec.ynm lpmn n m (x i) (Spec.phiSample nmax k) ∧
    (s.sampled s.ptmnw m p q).get i k =
      ((w i * (Real.pi / nmax) : ℝ) : ℂ) * Spec.ynm lpmn n m (x i) (Spec.phiSample nmax k) := by
  obtain ⟨hp, hq, hm, hn⟩ := h.index he
  have e1 : (s.sampled s.ptmn m p q).get i k = Spec.ynm lpmn n m (x i) (Spec.phiSample nmax k) := by
    simp only [SphHarm.sampled, sphPhi_eq, h.size, Spec.ynm]
    rw [h.ptmn, hm, hn]
    congr 2
    by_cases h0 : m < 0
    · rw [if_pos h0, if_pos h0]
      have : (-1 : ℝ) ^ m = (-1) ^ m.natAbs := by
        obtain ⟨j, rfl⟩ : ∃ j : Nat, m = -(j : ℤ) := ⟨m.natAbs, by omega⟩
        rw [Int.natAbs_neg, Int.natAbs_natCast, zpow_neg, zpow_natCast, ← inv_pow]
        norm_num
      rw [this]; ring
    · rw [if_neg h0, if_neg h0, zpow_zero]; ring
  refine ⟨e1, ?_⟩
  rw [← e1]
  simp only [SphHarm.sampled]
  rw [h.ptmnw]
  push_cast
  ring

theorem sphInner_conj (nmax : Nat) (x w : Nat → ℝ) (lpmn : Nat → Nat → ℝ → ℝ) (n : Nat) (m : Int) (n' : Nat) (m' : Int) :
    Spec.sphInner nmax x w lpmn n' m' n m = (starRingEnd ℂ) (Spec.sphInner nmax x w lpmn n m n' m') := by
  unfold Spec.sphInner
  rw [map_sum]
  refine Finset.sum_congr rfl fun i _ => ?_
  rw [map_sum]
  refine Finset.sum_congr rfl fun k _ => ?_
  rw [map_mul, map_mul, Complex.conj_conj, Complex.conj_ofReal]
  ring

theorem ortho_iff {old : Bool} {nmax : Nat} {x w : Nat → ℝ} {lpmn : Nat → Nat → ℝ → ℝ} {empty : Int × Int → Nat × Int}
    {s : SphHarm} (hs : sphInit old nmax x w lpmn empty = .ok s) : s.checkOrthogonality = .ok () ↔
    ∀ n m n' m', Spec.Harmonic nmax n m → Spec.Harmonic nmax n' m' → ¬ (n' > n ∨ (n' = n ∧ m' > m)) →
      if n = n' ∧ m = m' then |‖Spec.sphInner nmax x w lpmn n m n' m'‖ - 1| < 1 / 10 ^ 6
      else ‖Spec.sphInner nmax x w lpmn n m n' m'‖ < 1 / 10 ^ 6 := by
  have h := sphInit_ok hs
  have hsz := h.size
  have hidx : ∀ n m, Spec.Harmonic nmax n m → ∃ p q, (n, m, p, q) ∈ sphIndices nmax := by
    rintro n m ⟨h1, h2⟩
    by_cases h0 : 0 ≤ m
    · exact ⟨m, n, (c54_members nmax n m _ _).2 ⟨h1, h2, .inl ⟨h0, rfl, rfl⟩⟩⟩
    · exact ⟨nmax + m, nmax - 1 - n, (c54_members nmax n m _ _).2 ⟨h1, h2, .inr ⟨by omega, rfl, rfl⟩⟩⟩
  have hinner : ∀ n m p q n' m' p' q', (n, m, p, q) ∈ sphIndices nmax → (n', m', p', q') ∈ sphIndices nmax →
      Arr2.sum ⟨(s.sampled s.ptmnw m p q).rows, (s.sampled s.ptmnw m p q).cols, fun i k => (s.sampled s.ptmnw m p q).get i k *
        (starRingEnd ℂ) ((s.sampled s.ptmn m' p' q').get i k)⟩ = Spec.sphInner nmax x w lpmn n m n' m' := by
    intro n m p q n' m' p' q' he he'
    unfold Arr2.sum Spec.sphInner
    simp only
    rw [show (s.sampled s.ptmnw m p q).rows = nmax from hsz, show (s.sampled s.ptmnw m p q).cols = 2 * nmax by
      simp only [SphHarm.sampled, hsz]]
    refine Finset.sum_congr rfl fun i _ => Finset.sum_congr rfl fun k _ => ?_
    rw [(h.samples he i k).2, (h.samples he' i k).1, mul_assoc]
  unfold SphHarm.checkOrthogonality
  rw [forM_ok, hsz]
  constructor
  · intro hc n m n' m' hh hh' hord
    obtain ⟨p, q, he⟩ := hidx n m hh
    obtain ⟨p', q', he'⟩ := hidx n' m' hh'
    have h1 := (forM_ok _ _).1 (hc _ he) _ he'
    dsimp only at h1
    rw [if_neg hord, hinner _ _ _ _ _ _ _ _ he he'] at h1
    split_ifs at h1 ⊢ with hd
    · exact pyAssert_ok.1 h1
    · exact pyAssert_ok.1 h1
  · rintro hc ⟨n, m, p, q⟩ he
    refine (forM_ok _ _).2 ?_
    rintro ⟨n', m', p', q'⟩ he'
    dsimp only
    split_ifs with hord hd
    · rfl
    · rw [hinner _ _ _ _ _ _ _ _ he he', pyAssert_ok]
      have hm := (c54_members nmax n m p q).1 he
      have hm' := (c54_members nmax n' m' p' q').1 he'
      have := hc n m n' m' ⟨hm.1, hm.2.1⟩ ⟨hm'.1, hm'.2.1⟩ hord
      rwa [if_pos hd] at this
    · rw [hinner _ _ _ _ _ _ _ _ he he', pyAssert_ok]
      have hm := (c54_members nmax n m p q).1 he
      have hm' := (c54_members nmax n' m' p' q').1 he'
      have := hc n m n' m' ⟨hm.1, hm.2.1⟩ ⟨hm'.1, hm'.2.1⟩ hord
      rwa [if_neg hd] at this

/-- C116: what it means that `check_orthogonality` passes, whatever nodes, weights and functions the constructor was given: the sampled
inner products of all harmonics below the order, also of those the loop leaves out, are within `1e-6` of those of an orthonormal set. -/
theorem c116_ortho_means {old : Bool} {nmax : Nat} {x w : Nat → ℝ} {lpmn : Nat → Nat → ℝ → ℝ} {empty : Int × Int → Nat × Int}
    {s : SphHarm} (hs : sphInit old nmax x w lpmn empty = .ok s) : s.checkOrthogonality = .ok () ↔
    ∀ n m n' m', Spec.Harmonic nmax n m → Spec.Harmonic nmax n' m' →
      |‖Spec.sphInner nmax x w lpmn n m n' m'‖ - if n = n' ∧ m = m' then 1 else 0| < 1 / 10 ^ 6 := by
  rw [ortho_iff hs]
  constructor
  · intro hc n m n' m' hh hh'
    have key : ∀ n m n' m', Spec.Harmonic nmax n m → Spec.Harmonic nmax n' m' → ¬ (n' > n ∨ (n' = n ∧ m' > m)) →
        |‖Spec.sphInner nmax x w lpmn n m n' m'‖ - if n = n' ∧ m = m' then 1 else 0| < 1 / 10 ^ 6 := by
      intro n m n' m' hh hh' hord
      have := hc n m n' m' hh hh' hord
      split_ifs at this ⊢ with hd
      · exact this
      · rwa [sub_zero, abs_norm]
    by_cases hord : n' > n ∨ (n' = n ∧ m' > m)
    · have := key n' m' n m hh' hh (by omega)
      rw [sphInner_conj, RCLike.norm_conj] at this
      simpa only [eq_comm (a := n'), eq_comm (a := m')] using this
    · exact key n m n' m' hh hh' hord
  · intro hc n m n' m' hh hh' _
    have := hc n m n' m' hh hh'
    split_ifs at this ⊢ with hd
    · exact this
    · rwa [sub_zero, abs_norm] at this

/-- the array with a one at one place -/
noncomputable def unitArr (nmax p q : Nat) : Arr2 := ⟨nmax, nmax, fun i j => if i = p ∧ j = q then 1 else 0⟩

theorem analysis_congr {s : SphHarm} {f g a : Arr2} (hr : f.rows = g.rows) (hc : f.cols = g.cols)
    (hg : ∀ i < s.nmax, ∀ k < 2 * s.nmax, f.get i k = g.get i k) (h : s.analysis f = .ok a) : s.analysis g = .ok a := by
  unfold SphHarm.analysis at h ⊢
  rw [← hr, ← hc]
  split_ifs at h ⊢
  rw [← Except.ok.inj h]
  simp only
  congr 2
  funext j k
  refine Finset.sum_congr rfl fun i hi => ?_
  congr 1
  unfold dft
  exact Finset.sum_congr rfl fun l hl => by rw [hg i (Finset.mem_range.1 hi) l (Finset.mem_range.1 hl)]

theorem synthesis_congr {s : SphHarm} {a b f : Arr2} (hr : a.rows = b.rows) (hc : a.cols = b.cols)
    (hg : ∀ p < s.nmax, ∀ q < s.nmax, a.get p q = b.get p q) (h : s.synthesis a = .ok f) :
    ∃ f', s.synthesis b = .ok f' ∧ f'.rows = f.rows ∧ f'.cols = f.cols ∧ ∀ i k, f'.get i k = f.get i k := by
  unfold SphHarm.synthesis at h ⊢
  rw [← hr, ← hc]
  split_ifs at h ⊢
  refine ⟨_, rfl, by rw [← Except.ok.inj h], by rw [← Except.ok.inj h], fun i k => ?_⟩
  rw [← Except.ok.inj h]
  simp only
  congr 2
  unfold idft
  congr 1
  refine Finset.sum_congr rfl fun c hcc => ?_
  congr 1
  have hcc := Finset.mem_range.1 hcc
  unfold SphHarm.synthRow
  simp only
  split_ifs with h1
  · refine Finset.sum_congr rfl fun q hq => ?_
    rw [hg c h1 q (Finset.mem_range.1 hq)]
  · refine Finset.sum_congr rfl fun q hq => ?_
    rw [hg (c - s.nmax) (by omega) q (Finset.mem_range.1 hq)]

/-- `synthesis` of the array with a single one gives the samples of one harmonic, `analysis` takes them back. -/
theorem single_harmonic {old : Bool} {nmax : Nat} {x w : Nat → ℝ} {lpmn : Nat → Nat → ℝ → ℝ} {empty : Int × Int → Nat × Int}
    {s : SphHarm} (hs : sphInit old nmax x w lpmn empty = .ok s) (hL : Spec.LegendreOrtho nmax x w lpmn) {n : Nat} {m p q : Int}
    (he : (n, m, p, q) ∈ sphIndices nmax) :
    ∃ a f, s.analysis (s.sampled s.ptmn m p q) = .ok a ∧ a.rows = nmax ∧ a.cols = nmax ∧
      (∀ i < nmax, ∀ j < nmax, a.get i j = if i = p.toNat ∧ j = q.toNat then 1 else 0) ∧
      s.synthesis a = .ok f ∧ f.rows = nmax ∧ f.cols = 2 * nmax ∧
      ∀ i < nmax, ∀ k < 2 * nmax, f.get i k = (s.sampled s.ptmn m p q).get i k := by
  have h := sphInit_ok hs
  have hsz := h.size
  obtain ⟨f, hf, hfr, hfc, hfg⟩ := c55_synthesis hs (unitArr nmax p.toNat q.toNat) rfl rfl
  obtain ⟨f', a, hf', ha, har, hac, hag⟩ := c55_roundtrip hs hL (unitArr nmax p.toNat q.toNat) rfl rfl
  obtain rfl := Except.ok.inj (hf.symm.trans hf')
  have hy : ∀ i < nmax, ∀ k < 2 * nmax, f.get i k = (s.sampled s.ptmn m p q).get i k := by
    intro i hi k hk
    rw [hfg i hi k hk, (h.samples he i k).1]
    have hnd : (sphIndices nmax).Nodup := by
      have := (c54_places nmax).1
      exact this.of_map _
    rw [List.sum_map_eq_nsmul_single (n, m, p, q)]
    · rw [@List.count_eq_one_of_mem _ instBEqOfDecidableEq _ _ _ hnd he, one_smul]
      simp [unitArr]
    · rintro ⟨n', m', p', q'⟩ hne he'
      have h1 := (c54_places nmax).2 p q |>.1 (List.mem_map.2 ⟨_, he, rfl⟩)
      have h2 := (c54_places nmax).2 p' q' |>.1 (List.mem_map.2 ⟨_, he', rfl⟩)
      simp only [unitArr]
      rw [if_neg, zero_mul]
      rintro ⟨e1, e2⟩
      refine hne ?_
      obtain ⟨rfl, rfl⟩ : p' = p ∧ q' = q := by constructor <;> omega
      have a1 := h.index he
      have a2 := h.index he'
      rw [a1.2.2.1] at a2
      rw [a1.2.2.2] at a2
      rw [a2.2.2.1, a2.2.2.2]
  have ha' : s.analysis (s.sampled s.ptmn m p q) = .ok a :=
    analysis_congr (f := f) (hfr.trans hsz.symm) (by rw [hfc]; simp only [SphHarm.sampled, hsz]) (by rw [hsz]; exact hy) ha
  obtain ⟨f2, g1, g2, g3, g4⟩ := synthesis_congr (a := unitArr nmax p.toNat q.toNat) (b := a) har.symm hac.symm
    (by rw [hsz]; exact fun i hi j hj => (hag i hi j hj).symm) hf
  refine ⟨a, f2, ha', har, hac, fun i hi j hj => by rw [hag i hi j hj]; rfl, g1, g2.trans hfr, g3.trans hfc, fun i hi k hk => ?_⟩
  rw [g4, hy i hi k hk]

/-- C116: for every size `check_orthogonality` passes: the sampled harmonics are exactly orthonormal. -/
theorem c116_ortho {old : Bool} {nmax : Nat} {x w : Nat → ℝ} {empty : Int × Int → Nat × Int} {s : SphHarm}
    (hg : Spec.GaussLegendre nmax x w) (hs : sphInit old nmax x w Spec.assocLegendre empty = .ok s) :
    s.checkOrthogonality = .ok () ∧ ∀ n m n' m', Spec.Harmonic nmax n m → Spec.Harmonic nmax n' m' →
      Spec.sphInner nmax x w Spec.assocLegendre n m n' m' = if n = n' ∧ m = m' then 1 else 0 := by
  have h := sphInit_ok hs
  have hsz := h.size
  have key : ∀ n m n' m', Spec.Harmonic nmax n m → Spec.Harmonic nmax n' m' →
      Spec.sphInner nmax x w Spec.assocLegendre n m n' m' = if n = n' ∧ m = m' then 1 else 0 := by
    intro n m n' m' hh hh'
    have hidx : ∀ n m, Spec.Harmonic nmax n m → ∃ p q, (n, m, p, q) ∈ sphIndices nmax := by
      rintro n m ⟨h1, h2⟩
      by_cases h0 : 0 ≤ m
      · exact ⟨m, n, (c54_members nmax n m _ _).2 ⟨h1, h2, .inl ⟨h0, rfl, rfl⟩⟩⟩
      · exact ⟨nmax + m, nmax - 1 - n, (c54_members nmax n m _ _).2 ⟨h1, h2, .inr ⟨by omega, rfl, rfl⟩⟩⟩
    obtain ⟨p, q, he⟩ := hidx n m hh
    obtain ⟨p', q', he'⟩ := hidx n' m' hh'
    obtain ⟨a, f, ha, -, -, hag, -⟩ := single_harmonic hs (c55_legendre hg) he
    obtain ⟨a', ha', -, -, hf⟩ := c55_analysis hs (s.sampled s.ptmn m p q) hsz (by simp only [SphHarm.sampled, hsz])
    obtain rfl := Except.ok.inj (ha.symm.trans ha')
    have h2 := hf n' m' p' q' he'
    have i1 := h.index he
    have i2 := h.index he'
    rw [hag _ i2.1 _ i2.2.1] at h2
    unfold Spec.sphInner
    rw [show (∑ i ∈ Finset.range nmax, ∑ k ∈ Finset.range (2 * nmax), ((w i * (Real.pi / nmax) : ℝ) : ℂ) *
        (Spec.ynm Spec.assocLegendre n m (x i) (Spec.phiSample nmax k) *
          (starRingEnd ℂ) (Spec.ynm Spec.assocLegendre n' m' (x i) (Spec.phiSample nmax k)))) =
        if p'.toNat = p.toNat ∧ q'.toNat = q.toNat then 1 else 0 by
      rw [h2]
      refine Finset.sum_congr rfl fun i _ => Finset.sum_congr rfl fun k _ => ?_
      rw [(h.samples he i k).1]]
    have hiff : (p'.toNat = p.toNat ∧ q'.toNat = q.toNat) ↔ (n = n' ∧ m = m') := by
      constructor
      · rintro ⟨e1, e2⟩
        rw [e1, e2] at i2
        exact ⟨i1.2.2.2.symm.trans i2.2.2.2, i1.2.2.1.symm.trans i2.2.2.1⟩
      · rintro ⟨rfl, rfl⟩
        have m1 := (c54_members nmax n m p q).1 he
        have m2 := (c54_members nmax n m p' q').1 he'
        omega
    simp only [hiff]
  refine ⟨(c116_ortho_means hs).2 fun n m n' m' hh hh' => ?_, key⟩
  rw [key n m n' m' hh hh']
  split_ifs <;> norm_num

theorem close_refl (z : ℂ) : close z z := by
  unfold close
  rw [sub_self, norm_zero]
  positivity

/-- C116: for every size `check_identity` passes: of the samples of a harmonic `analysis` gives the array with a single one at its
place, and `synthesis` of that array gives the samples. -/
theorem c116_identity {old : Bool} {nmax : Nat} {x w : Nat → ℝ} {empty : Int × Int → Nat × Int} {s : SphHarm}
    (hg : Spec.GaussLegendre nmax x w) (hs : sphInit old nmax x w Spec.assocLegendre empty = .ok s) :
    s.checkIdentity = .ok () := by
  have h := sphInit_ok hs
  have hsz := h.size
  unfold SphHarm.checkIdentity
  rw [forM_ok, hsz]
  rintro ⟨n, m, p, q⟩ he
  obtain ⟨a, f, ha, har, hac, hag, hf, hfr, hfc, hfg⟩ := single_harmonic hs (c55_legendre hg) he
  have i1 := h.index he
  have hsum : a.absSum = 1 := by
    unfold Arr2.absSum
    rw [har, hac, Finset.sum_eq_single p.toNat, Finset.sum_eq_single q.toNat]
    · rw [hag _ i1.1 _ i1.2.1]; simp
    · intro j hj hne
      rw [hag _ i1.1 _ (Finset.mem_range.1 hj), if_neg (by tauto), norm_zero]
    · intro hj; exact absurd (Finset.mem_range.2 i1.2.1) hj
    · intro i hi hne
      refine Finset.sum_eq_zero fun j hj => ?_
      rw [hag _ (Finset.mem_range.1 hi) _ (Finset.mem_range.1 hj), if_neg (by tauto), norm_zero]
    · intro hj; exact absurd (Finset.mem_range.2 i1.1) hj
  have hys : f.absSum = (s.sampled s.ptmn m p q).absSum := by
    unfold Arr2.absSum
    rw [hfr, hfc, show (s.sampled s.ptmn m p q).rows = nmax from hsz, show (s.sampled s.ptmn m p q).cols = 2 * nmax by
      simp only [SphHarm.sampled, hsz]]
    exact Finset.sum_congr rfl fun i hi => Finset.sum_congr rfl fun k hk => by
      rw [hfg i (Finset.mem_range.1 hi) k (Finset.mem_range.1 hk)]
  dsimp only
  rw [ha]
  simp only [bind, Except.bind]
  rw [pyAssert_ok.2 (by rw [hsum]; simpa using close_refl 1)]
  simp only
  rw [pyAssert_ok.2 (by rw [hag _ i1.1 _ i1.2.1, if_pos ⟨rfl, rfl⟩]; exact close_refl 1)]
  simp only
  rw [hf]
  simp only
  rw [pyAssert_ok.2 (by rw [hys]; exact close_refl _)]
  simp only
  rw [pyAssert_ok]
  intro i hi k hk
  have hi : i < nmax := by simpa only [SphHarm.sampled, hsz] using hi
  have hk : k < 2 * nmax := by simpa only [SphHarm.sampled, hsz] using hk
  rw [hfg i hi k hk]
  exact close_refl _

/-- C116: what it means that `check_identity` passes, whatever nodes, weights and functions the constructor was given: for every
harmonic, of its samples `analysis` gives an array whose absolute values add up to one and that is one at the place of the harmonic, and
`synthesis` of that array gives back the samples, all up to the tolerances of `np.allclose`. -/
theorem c116_identity_means {old : Bool} {nmax : Nat} {x w : Nat → ℝ} {lpmn : Nat → Nat → ℝ → ℝ} {empty : Int × Int → Nat × Int}
    {s : SphHarm} (hs : sphInit old nmax x w lpmn empty = .ok s) : s.checkIdentity = .ok () ↔
    ∀ n m p q, (n, m, p, q) ∈ sphIndices nmax → ∃ a f,
      s.analysis ⟨nmax, 2 * nmax, fun i k => Spec.ynm lpmn n m (x i) (Spec.phiSample nmax k)⟩ = .ok a ∧ s.synthesis a = .ok f ∧
      |∑ i ∈ Finset.range a.rows, ∑ k ∈ Finset.range a.cols, ‖a.get i k‖ - 1| ≤ 1 / 10 ^ 8 + 1 / 10 ^ 5 ∧
      ‖a.get p.toNat q.toNat - 1‖ ≤ 1 / 10 ^ 8 + 1 / 10 ^ 5 ∧
      |∑ i ∈ Finset.range nmax, ∑ k ∈ Finset.range (2 * nmax), ‖Spec.ynm lpmn n m (x i) (Spec.phiSample nmax k)‖
          - ∑ i ∈ Finset.range f.rows, ∑ k ∈ Finset.range f.cols, ‖f.get i k‖|
        ≤ 1 / 10 ^ 8 + 1 / 10 ^ 5 * ∑ i ∈ Finset.range f.rows, ∑ k ∈ Finset.range f.cols, ‖f.get i k‖ ∧
      ∀ i < nmax, ∀ k < 2 * nmax, ‖f.get i k - Spec.ynm lpmn n m (x i) (Spec.phiSample nmax k)‖
        ≤ 1 / 10 ^ 8 + 1 / 10 ^ 5 * ‖Spec.ynm lpmn n m (x i) (Spec.phiSample nmax k)‖ := by
  have h := sphInit_ok hs
  have hsz := h.size
  have creal : ∀ a b : ℝ, close (a : ℂ) (b : ℂ) ↔ |a - b| ≤ 1 / 10 ^ 8 + 1 / 10 ^ 5 * |b| := by
    intro a b
    unfold close
    rw [← Complex.ofReal_sub, Complex.norm_real, Complex.norm_real, Real.norm_eq_abs, Real.norm_eq_abs]
  have csum : ∀ f : Arr2, 0 ≤ f.absSum := fun f => Finset.sum_nonneg fun _ _ => Finset.sum_nonneg fun _ _ => norm_nonneg _
  have one : ∀ n m p q, (n, m, p, q) ∈ sphIndices nmax →
      s.sampled s.ptmn m p q = ⟨nmax, 2 * nmax, fun i k => Spec.ynm lpmn n m (x i) (Spec.phiSample nmax k)⟩ := by
    intro n m p q he
    have : (s.sampled s.ptmn m p q).get = fun i k => Spec.ynm lpmn n m (x i) (Spec.phiSample nmax k) := by
      funext i k
      exact (h.samples he i k).1
    rw [← this]
    simp only [SphHarm.sampled, hsz]
  unfold SphHarm.checkIdentity
  rw [forM_ok, hsz]
  constructor
  · intro hc n m p q he
    have h1 := hc _ he
    dsimp only at h1
    rw [one n m p q he] at h1
    cases ha : s.analysis ⟨nmax, 2 * nmax, fun i k => Spec.ynm lpmn n m (x i) (Spec.phiSample nmax k)⟩ with
    | error e => rw [ha] at h1; cases h1
    | ok a =>
      rw [ha] at h1
      simp only [bind, Except.bind] at h1
      split at h1
      · cases h1
      rename_i g1
      split at h1
      · cases h1
      rename_i g2
      cases hf : s.synthesis a with
      | error e => rw [hf] at h1; cases h1
      | ok f =>
        rw [hf] at h1
        simp only at h1
        split at h1
        · cases h1
        rename_i g3
        rw [pyAssert_ok] at g1 g2 g3 h1
        refine ⟨a, f, rfl, hf, ?_, ?_, ?_, h1⟩
        · have := (creal a.absSum 1).1 (by simpa using g1)
          simpa [Arr2.absSum] using this
        · simpa [close] using g2
        · have := (creal _ _).1 g3
          rwa [abs_of_nonneg (csum f)] at this
  · rintro hc ⟨n, m, p, q⟩ he
    obtain ⟨a, f, ha, hf, g1, g2, g3, g4⟩ := hc n m p q he
    dsimp only
    rw [one n m p q he, ha]
    simp only [bind, Except.bind]
    rw [pyAssert_ok.2 (by simpa using (creal a.absSum 1).2 (by simpa [Arr2.absSum] using g1))]
    simp only
    rw [pyAssert_ok.2 (show close (a.get p.toNat q.toNat) 1 by simpa [close] using g2)]
    simp only
    rw [hf]
    simp only
    rw [pyAssert_ok.2 ((creal _ _).2 (by rw [abs_of_nonneg (csum f)]; exact g3))]
    simp only
    rw [pyAssert_ok]
    exact g4

/-- C116: `spherical_grid` and `cartesian_grid` give the points at which the transform samples: with radius `r`, the polar angle whose
cosine is a node and the azimuth of the sample. -/
theorem c116_grid {nmax : Nat} {x w : Nat → ℝ} (hg : Spec.GaussLegendre nmax x w) (r : ℝ) (i k : Nat) (hi : i < nmax) :
    Real.cos ((sphericalGrid nmax x).1 i k) = x i ∧ (sphericalGrid nmax x).2 i k = Spec.phiSample nmax k ∧
    cartesianGrid nmax x r i k = sphericalToCartesian r ((sphericalGrid nmax x).1 i k) ((sphericalGrid nmax x).2 i k) ∧
    (cartesianGrid nmax x r i k).1 ^ 2 + (cartesianGrid nmax x r i k).2.1 ^ 2 + (cartesianGrid nmax x r i k).2.2 ^ 2 = r ^ 2 := by
  obtain ⟨h1, h2⟩ := hg.inside i hi
  refine ⟨Real.cos_arccos h1 h2, sphPhi_eq _ _, rfl, ?_⟩
  unfold cartesianGrid sphericalToCartesian
  simp only
  have e1 := Real.sin_sq_add_cos_sq (Real.arccos (x i))
  have e2 := Real.sin_sq_add_cos_sq (sphPhi nmax k)
  linear_combination r ^ 2 * Real.sin (Real.arccos (x i)) ^ 2 * e2 + r ^ 2 * e1

/-- both checks for two nodes -/
example : ∃ s, sphInit true 2 (fun i => if i = 0 then -(1 / √3) else 1 / √3) (fun _ => 1) Spec.assocLegendre (fun _ => (0, 0)) =
    .ok s ∧ s.checkOrthogonality = .ok () ∧ s.checkIdentity = .ok () := by
  obtain ⟨s, hs⟩ := c55_old_numpy 2 (fun i => if i = 0 then -(1 / √3) else 1 / √3) (fun _ => 1) Spec.assocLegendre (fun _ => (0, 0))
  exact ⟨s, hs, (c116_ortho exGauss hs).1, c116_identity exGauss hs⟩

/-- with weights that are all zero the check does not pass -/
example : ∃ s, sphInit true 2 (fun i => if i = 0 then -(1 / √3) else 1 / √3) (fun _ => 0) Spec.assocLegendre (fun _ => (0, 0)) =
    .ok s ∧ s.checkOrthogonality ≠ .ok () := by
  obtain ⟨s, hs⟩ := c55_old_numpy 2 (fun i => if i = 0 then -(1 / √3) else 1 / √3) (fun _ => 0) Spec.assocLegendre (fun _ => (0, 0))
  refine ⟨s, hs, fun h => ?_⟩
  have := (c116_ortho_means hs).1 h 0 0 0 0 ⟨by norm_num, by norm_num⟩ ⟨by norm_num, by norm_num⟩
  simp only [Spec.sphInner, zero_mul, Complex.ofReal_zero, Finset.sum_const_zero, norm_zero] at this
  norm_num at this

/-! ### sums of the Mathieu coefficients -/

theorem sixfold (f1 f2 f3 f4 f5 f6 : Nat → ℝ) (M : Nat) :
    (List.range M).foldl (fun (t : ℝ × ℝ × ℝ × ℝ × ℝ × ℝ) (k : Nat) =>
      (t.1 + f1 k, t.2.1 + f2 k, t.2.2.1 + f3 k, t.2.2.2.1 + f4 k, t.2.2.2.2.1 + f5 k, t.2.2.2.2.2 + f6 k)) (0, 0, 0, 0, 0, 0) =
    (∑ k ∈ Finset.range M, f1 k, ∑ k ∈ Finset.range M, f2 k, ∑ k ∈ Finset.range M, f3 k, ∑ k ∈ Finset.range M, f4 k,
      ∑ k ∈ Finset.range M, f5 k, ∑ k ∈ Finset.range M, f6 k) := by
  induction M with
  | zero => simp
  | succ M ih => rw [List.range_succ, List.foldl_append, ih]; simp [Finset.sum_range_succ]

theorem shifted_sum (C : ℤ → ℝ) (N M : Nat) :
    ∑ k ∈ Finset.range M, (C ((k : ℤ) - N - 1) + C ((k : ℤ) - N + 1)) = 2 * ∑ k ∈ Finset.range M, C ((k : ℤ) - N) +
      (C (-(N : ℤ) - 1) - C (-(N : ℤ))) + (C ((M : ℤ) - N) - C ((M : ℤ) - N - 1)) := by
  induction M with
  | zero => simp
  | succ M ih =>
    rw [Finset.sum_range_succ, ih, Finset.sum_range_succ]
    push_cast
    rw [show (M : ℤ) + 1 - N - 1 = M - N by ring, show (M : ℤ) + 1 - N = M - N + 1 by ring]
    ring

theorem shifted_moment (C : ℤ → ℝ) (N M : Nat) :
    ∑ k ∈ Finset.range M, (((k : ℤ) - N : ℤ) : ℝ) * (C ((k : ℤ) - N - 1) + C ((k : ℤ) - N + 1)) =
      2 * ∑ k ∈ Finset.range M, (((k : ℤ) - N : ℤ) : ℝ) * C ((k : ℤ) - N) +
      ((N + 1) * C (-(N : ℤ)) - N * C (-(N : ℤ) - 1)) +
      ((((M : ℤ) - N - 1 : ℤ) : ℝ) * C ((M : ℤ) - N) - (((M : ℤ) - N : ℤ) : ℝ) * C ((M : ℤ) - N - 1)) := by
  induction M with
  | zero => simp; ring
  | succ M ih =>
    rw [Finset.sum_range_succ, ih, Finset.sum_range_succ]
    push_cast
    rw [show (M : ℤ) + 1 - N - 1 = M - N by ring, show (M : ℤ) + 1 - N = M - N + 1 by ring]
    ring

theorem sumC_getD_map_mul (c : List ℝ) (z : ℝ) (k : Nat) : (c.map (· * z)).getD k 0 = c.getD k 0 * z := by
  rcases lt_or_ge k c.length with hk | hk
  · rw [List.getD_eq_getElem _ _ (by simpa using hk), List.getD_eq_getElem _ _ hk, List.getElem_map]
  · rw [List.getD_eq_default _ _ (by simpa using hk), List.getD_eq_default _ _ hk, zero_mul]

theorem sum_getD (c : List ℝ) : c.sum = ∑ k ∈ Finset.range c.length, c.getD k 0 := by
  have := list_sum_zipIdx c fun p => p.1
  rw [← this]
  simp

/-- C116: what `sum_c` returns and prints, whenever `coeff_Cn` has a result.  With the coefficients `C n` of the even solution, continued
beyond the arrays as in C58:
* `totnu = nu + 2 totn` and `totsnu = 1`; the second printed number is zero;
* the first printed number consists of the two pairs of coefficients at the ends only, whatever the exponent `nu`;
* `totg` is 2 up to the coefficients at the ends and the defect of the recurrence at `n = 0`, which vanishes exactly when `nu` is an
  exponent of the truncated system. -/
theorem c116_sums {a q nu : ℝ} {nc ng : Nat} {ccn csn cn : List ℝ} (h : coeffCn a q nu nc ng = some (ccn, csn, cn)) :
    ∃ totn totnu totg totgn tots totsnu p1 p2, sumC a q nu nc ng = some ((totn, totnu, totg, totgn, tots, totsnu), p1, p2) ∧
      totnu = nu + 2 * totn ∧ totsnu = 1 ∧ p2 = 0 ∧ tots * totnu = 1 ∧
      ∃ C : ℤ → ℝ, (∀ k : Nat, k < 2 * nc + 1 → ccn.getD k 0 = C ((k : ℤ) - nc)) ∧
        (∀ n : ℤ, n ≠ 0 → |n| ≤ ((nc + ng : Nat) : ℤ) → (a - (nu + 2 * n) ^ 2) * C n = q * (C (n - 1) + C (n + 1))) ∧
        (∀ n : ℤ, ((nc + ng : Nat) : ℤ) < |n| → C n = 0) ∧
        p1 = totgn - 2 * totn ∧ p1 = nc * (C (nc + 1) - C (-nc - 1)) - (nc + 1) * (C nc - C (-nc)) ∧
        totg = 2 + (C (nc + 1) + C (-nc - 1)) - (C nc + C (-nc)) + ((a - nu ^ 2) / q * C 0 - (C (-1) + C 1)) := by
  obtain ⟨hl, C₀, hC0, hzero, hrec, hC⟩ := c58_recurrence h
  obtain ⟨ln, rp, -, hp, -, hS, hV, hc, hs⟩ := coeffCn_some h
  have hq := q_ne hp
  set S := cn.sum with hSd
  set V := (List.zipWith (· * ·) ((List.range (2 * nc + 1)).map fun k : Nat => 2 * ((k : ℝ) - nc) + nu) cn).sum with hVd
  have hSs : S = ∑ k ∈ Finset.range (2 * nc + 1), C₀ ((k : ℤ) - nc) := by
    rw [hSd, sum_getD, hl]
    exact Finset.sum_congr rfl fun k hk => hC k (Finset.mem_range.1 hk)
  have hVs : V = ∑ k ∈ Finset.range (2 * nc + 1), (nu + 2 * (((k : ℤ) - nc : ℤ) : ℝ)) * C₀ ((k : ℤ) - nc) := by
    rw [hVd, sum_getD]
    rw [show (List.zipWith (· * ·) ((List.range (2 * nc + 1)).map fun k : Nat => 2 * ((k : ℝ) - nc) + nu) cn).length = 2 * nc + 1 by
      simp [hl]]
    refine Finset.sum_congr rfl fun k hk => ?_
    have hk := Finset.mem_range.1 hk
    rw [List.getD_eq_getElem _ _ (by simp [hl, hk]), List.getElem_zipWith, List.getElem_map, List.getElem_range,
      ← hC k hk, List.getD_eq_getElem _ _ (by omega)]
    push_cast
    ring
  have hcc : ∀ k : Nat, k < 2 * nc + 1 → ccn.getD k 0 = C₀ ((k : ℤ) - nc) * (1 / S) := fun k hk => by
    rw [hc, sumC_getD_map_mul, hC k hk]
  have hcs : ∀ k : Nat, k < 2 * nc + 1 → csn.getD k 0 = C₀ ((k : ℤ) - nc) * (1 / V) := fun k hk => by
    rw [hs, sumC_getD_map_mul, hC k hk]
  have hmid : csn.getD nc 0 = 1 / V := by rw [hcs nc (by omega), sub_self, hC0, one_mul]
  have hmidc : ccn.getD nc 0 = 1 / S := by rw [hcc nc (by omega), sub_self, hC0, one_mul]
  set T := ∑ k ∈ Finset.range (2 * nc + 1), (((k : ℤ) - nc : ℤ) : ℝ) * C₀ ((k : ℤ) - nc) with hT
  have hVT : V = nu * S + 2 * T := by
    rw [hVs, hSs, hT, Finset.mul_sum, Finset.mul_sum, ← Finset.sum_add_distrib]
    exact Finset.sum_congr rfl fun k _ => by ring
  have hg : ∀ n : ℤ, n ≠ 0 → |n| ≤ nc → gn a q nu n * C₀ n = C₀ (n - 1) + C₀ (n + 1) := by
    intro n h0 hn
    have := hrec n h0 (by push_cast; omega)
    unfold gn
    field_simp
    linear_combination this
  have habs : ∀ k : Nat, k < 2 * nc + 1 → |((k : ℤ) - nc)| ≤ nc := fun k hk => abs_le.2 (by omega)
  -- the sums
  have e1 : ∑ k ∈ Finset.range (2 * nc + 1), (((k : ℤ) - nc : ℤ) : ℝ) * ccn.getD k 0 = T * (1 / S) := by
    rw [hT, Finset.sum_mul]
    exact Finset.sum_congr rfl fun k hk => by rw [hcc k (Finset.mem_range.1 hk)]; ring
  have e2 : ∑ k ∈ Finset.range (2 * nc + 1), (nu + 2 * (((k : ℤ) - nc : ℤ) : ℝ)) * ccn.getD k 0 = V * (1 / S) := by
    rw [hVs, Finset.sum_mul]
    exact Finset.sum_congr rfl fun k hk => by rw [hcc k (Finset.mem_range.1 hk)]; ring
  have e5 : ∑ k ∈ Finset.range (2 * nc + 1), csn.getD k 0 = S * (1 / V) := by
    rw [hSs, Finset.sum_mul]
    exact Finset.sum_congr rfl fun k hk => by rw [hcs k (Finset.mem_range.1 hk)]
  have e6 : ∑ k ∈ Finset.range (2 * nc + 1), (nu + 2 * (((k : ℤ) - nc : ℤ) : ℝ)) * csn.getD k 0 = 1 := by
    have : ∑ k ∈ Finset.range (2 * nc + 1), (nu + 2 * (((k : ℤ) - nc : ℤ) : ℝ)) * csn.getD k 0 = V * (1 / V) := by
      conv_rhs => rw [hVs, Finset.sum_mul]
      exact Finset.sum_congr rfl fun k hk => by rw [hcs k (Finset.mem_range.1 hk), ← hVs]; ring
    rw [this]; field_simp
  have e4 : ∑ k ∈ Finset.range (2 * nc + 1), gn a q nu ((k : ℤ) - nc) * (((k : ℤ) - nc : ℤ) : ℝ) * ccn.getD k 0 =
      (2 * T + ((nc + 1) * C₀ (-(nc : ℤ)) - nc * C₀ (-(nc : ℤ) - 1)) + (nc * C₀ (nc + 1) - (nc + 1) * C₀ nc)) * (1 / S) := by
    have hm := shifted_moment C₀ nc (2 * nc + 1)
    push_cast at hm
    rw [show (2 * (nc : ℤ) + 1 - nc - 1) = nc by ring, show (2 * (nc : ℤ) + 1 - nc) = nc + 1 by ring] at hm
    rw [show (2 * T + ((nc + 1) * C₀ (-(nc : ℤ)) - nc * C₀ (-(nc : ℤ) - 1)) + (nc * C₀ (nc + 1) - (nc + 1) * C₀ nc)) =
      ∑ k ∈ Finset.range (2 * nc + 1), (((k : ℤ) - nc : ℤ) : ℝ) * (C₀ ((k : ℤ) - nc - 1) + C₀ ((k : ℤ) - nc + 1)) by
        rw [hT]; push_cast; rw [hm]; ring]
    rw [Finset.sum_mul]
    refine Finset.sum_congr rfl fun k hk => ?_
    rw [hcc k (Finset.mem_range.1 hk)]
    by_cases h0 : (k : ℤ) - nc = 0
    · rw [h0]; simp
    · rw [← hg _ h0 (habs k (Finset.mem_range.1 hk))]; ring
  have e3 : ∑ k ∈ Finset.range (2 * nc + 1), gn a q nu ((k : ℤ) - nc) * ccn.getD k 0 =
      (2 * S + (C₀ (-(nc : ℤ) - 1) - C₀ (-(nc : ℤ))) + (C₀ (nc + 1) - C₀ nc) +
        ((a - nu ^ 2) / q * C₀ 0 - (C₀ (-1) + C₀ 1))) * (1 / S) := by
    have hm := shifted_sum C₀ nc (2 * nc + 1)
    push_cast at hm
    rw [show (2 * (nc : ℤ) + 1 - nc - 1) = nc by ring, show (2 * (nc : ℤ) + 1 - nc) = nc + 1 by ring] at hm
    have hd : ∑ k ∈ Finset.range (2 * nc + 1), (gn a q nu ((k : ℤ) - nc) * C₀ ((k : ℤ) - nc) -
        (C₀ ((k : ℤ) - nc - 1) + C₀ ((k : ℤ) - nc + 1))) = (a - nu ^ 2) / q * C₀ 0 - (C₀ (-1) + C₀ 1) := by
      rw [Finset.sum_eq_single nc]
      · rw [sub_self]; simp [gn]
      · intro k hk hne
        rw [hg _ (by omega) (habs k (Finset.mem_range.1 hk)), sub_self]
      · intro hn; exact absurd (Finset.mem_range.2 (by omega)) hn
    rw [Finset.sum_sub_distrib, hm, ← hSs] at hd
    have : ∑ k ∈ Finset.range (2 * nc + 1), gn a q nu ((k : ℤ) - nc) * ccn.getD k 0 =
        (∑ k ∈ Finset.range (2 * nc + 1), gn a q nu ((k : ℤ) - nc) * C₀ ((k : ℤ) - nc)) * (1 / S) := by
      rw [Finset.sum_mul]
      exact Finset.sum_congr rfl fun k hk => by rw [hcc k (Finset.mem_range.1 hk)]; ring
    rw [this]
    congr 1
    linear_combination hd
  obtain ⟨G3, hG3⟩ : ∃ G, G = ∑ k ∈ Finset.range (2 * nc + 1), gn a q nu ((k : ℤ) - nc) * ccn.getD k 0 := ⟨_, rfl⟩
  obtain ⟨G4, hG4⟩ : ∃ G, G = ∑ k ∈ Finset.range (2 * nc + 1), gn a q nu ((k : ℤ) - nc) * (((k : ℤ) - nc : ℤ) : ℝ) * ccn.getD k 0 :=
    ⟨_, rfl⟩
  have hVinv : (1 / V) ≠ 0 := one_div_ne_zero hV
  have hsum : sumC a q nu nc ng = some ((T * (1 / S), V * (1 / S), G3, G4, S * (1 / V), 1), G4 - 2 * (T * (1 / S)),
      (1 * ccn.getD nc 0 * (1 / (1 / V)) - nu) / 2 - T * (1 / S)) := by
    unfold sumC
    rw [h]
    simp only
    rw [sixfold (fun k => (((k : ℤ) - nc : ℤ) : ℝ) * ccn.getD k 0) (fun k => (nu + 2 * (((k : ℤ) - nc : ℤ) : ℝ)) * ccn.getD k 0)
      (fun k => gn a q nu ((k : ℤ) - nc) * ccn.getD k 0) (fun k => gn a q nu ((k : ℤ) - nc) * (((k : ℤ) - nc : ℤ) : ℝ) * ccn.getD k 0)
      (fun k => csn.getD k 0) (fun k => (nu + 2 * (((k : ℤ) - nc : ℤ) : ℝ)) * csn.getD k 0), e1, e2, e5, e6, hmid, ← hG3, ← hG4]
    unfold recip
    rw [if_neg hVinv]
    rfl
  refine ⟨_, _, _, _, _, _, _, _, hsum, ?_, rfl, ?_, ?_, fun n => C₀ n * (1 / S), hcc, ?_, ?_, rfl, ?_, ?_⟩
  · rw [hVT]; field_simp
  · rw [hmidc, hVT]; field_simp; ring
  · field_simp
  · intro n h0 hn
    linear_combination (1 / S) * hrec n h0 hn
  · intro n hn
    simp only [hzero n hn, zero_mul]
  · rw [hG4, e4]; field_simp; ring
  · rw [hG3, e3]; field_simp; ring

/-- the sums for `a = 0`, `q = 1`, `nu = 1` and five coefficients -/
example : ∃ t p1 p2, sumC 0 1 1 2 1 = some (t, p1, p2) ∧ p2 = 0 ∧ t.2.2.2.2.2 = 1 := by
  obtain ⟨ccn, csn, cn, h⟩ := exCoeff
  obtain ⟨_, _, _, _, _, _, p1, p2, e, -, h1, h2, -⟩ := c116_sums h
  exact ⟨_, p1, p2, e, h2, h1⟩

end Electrode
