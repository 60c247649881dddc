import Verif.Spec.Report
import Verif.Props.Pseudo
import Verif.Props.Modes
import Verif.Props.Ions
import Verif.Props.Rfo

/-
C89: the report of `analyze_static`.
-/
namespace Electrode
open Spec Real

namespace Analyze

theorem say_none {ls : List Line} {r : Report} {lines : List Line} (h : Report.say ls r = (lines, none)) :
    ∃ l', r = (l', none) ∧ lines = ls ++ l' := by
  obtain ⟨a, b⟩ := r
  simp only [Report.say, Prod.mk.injEq] at h
  exact ⟨a, by rw [h.2], h.1.symm⟩

theorem runs_none {α : Type} {r : Py α} {k : α → Report} {lines : List Line} (h : Report.run r k = (lines, none)) :
    ∃ a, r = .ok a ∧ k a = (lines, none) := by
  cases r with
  | error e => simp [Report.run] at h
  | ok a => exact ⟨a, rfl, h⟩

theorem electrical_inv (s : List Elec) (p : V3) (d : Nat) (hd : d ≤ 1) (typ : VTyp) (r : List (List ℝ))
    (h : electricalPotential s [p] d typ false = .ok r) (l : Idx) (hl : l.length = d) :
    (r.getD 0 []).getD (rowMajor l) 0 = electricalAt s typ l p := by
  subst hl
  have ha : AvailAll s l.length typ := by
    by_contra hn; rw [electrical_err s _ _ typ _ hn] at h; cases h
  rw [electrical_eq s _ _ typ ha] at h
  cases h
  rw [electricalAt_eq s typ l (by omega) p ha]
  match l, hd with
  | [], _ => simp [sysTens, tens, rowMajor, entrySel]; rfl
  | [a], _ => fin_cases a <;> simp [sysTens, tens, rowMajor, entrySel] <;> rfl

theorem pseudo_inv (s : Sys) (p : V3) (r : List (List ℝ)) (l : Idx) (h : pseudoPotential s [p] l.length = .ok r) :
    (r.getD 0 []).getD (rowMajor l) 0 = pseudoAt s l p := by
  unfold pseudoAt
  rw [h]
  rfl

theorem individual_inv (s : List Elec) (p : V3) (ind : List (List (List ℝ))) (h : individualPotential s [p] 1 = .ok ind) :
    (ind.map fun rows (a : Fin 3) => row3of rows a) = s.map fun e a => tensorAt e 1 [a] p := by
  obtain ⟨ha, rfl⟩ := individual_eq s [p] 1 ind h
  rw [List.map_map]
  refine List.map_congr_left fun e he => ?_
  funext a
  rw [tensorAt_eq e 1 [a] (by simp) p (ha e he)]
  fin_cases a <;> simp [row3of, tens, entrySel] <;> rfl

theorem modeCol_eq (w : Fin ((2 * 4 + 1) * 2 * 3) → ℂ) : modeCol w = fun a => (component 4 3 w 0 0 a).re := by
  funext a
  unfold modeCol
  rw [c42_slice 4 w]
  simp

theorem modeReport_inv {kind : ModeKind} {freqs : List (Option ℝ)} {cols : List (Fin 3 → ℝ)} {rest : Report} {lines : List Line}
    (h : modeReport kind freqs cols rest = (lines, none)) :
    ∃ mj e l', assignCols cols = .ok mj ∧ eulerFromMatrix (homog mj) (.str ['r', 'z', 'x', 'z']) = .ok e ∧ rest = (l', none) ∧
      lines = (.modesOf kind ::
        (((List.range 3).zip (freqs.zip cols)).map fun p => .mode kind p.1 (p.2.1.map (· / 1e6)) p.2.2)) ++
        .euler kind (e.1 * 180 / π, e.2.1 * 180 / π, e.2.2 * 180 / π) :: l' := by
  unfold modeReport at h
  obtain ⟨l1, h1, rfl⟩ := say_none h
  obtain ⟨mj, hm, h2⟩ := runs_none h1
  obtain ⟨e, he, h3⟩ := runs_none h2
  obtain ⟨l2, h4, rfl⟩ := say_none h3
  exact ⟨mj, e, l2, hm, he, h4, rfl⟩

theorem euler_ok (cols : List (Fin 3 → ℝ)) (mj : Matrix (Fin 3) (Fin 3) ℝ) (e : ℝ × ℝ × ℝ) (hm : assignCols cols = .ok mj)
    (he : eulerFromMatrix (homog mj) (.str ['r', 'z', 'x', 'z']) = .ok e) (R : Matrix (Fin 3) (Fin 3) ℝ) (hR : IsRotation R)
    (hc : cols = List.ofFn R.transpose) :
    ∃ M' R', eulerMatrix (e.1 * 180 / π / 180 * π) (e.2.1 * 180 / π / 180 * π) (e.2.2 * 180 / π / 180 * π)
        (.str ['r', 'z', 'x', 'z']) = .ok M' ∧ Homog M' R' ∧ ∀ p q, |R' p q - R p q| ≤ 2 * tEps := by
  have h1 : ∀ t : ℝ, t * 180 / π / 180 * π = t := fun t => by field_simp
  rw [h1, h1, h1]
  have hmj : mj = R := by
    have e3 : List.ofFn R.transpose = [R.transpose 0, R.transpose 1, R.transpose 2] := rfl
    rw [hc, e3] at hm
    have hm := (Except.ok.inj hm).symm
    rw [hm]
    funext i j
    fin_cases j <;> rfl
  subst hmj
  obtain ⟨x, y, z, M', R', h2, h3, h4, h5⟩ := c67_roundtrip_close false 2 0 2 (by decide) (by decide) _ mj (homog_spec mj) hR
  have e1 : axesName false 2 0 2 = ['r', 'z', 'x', 'z'] := by decide
  rw [e1] at h2 h3
  rw [he] at h2
  cases h2
  exact ⟨M', R', h3, h4, h5⟩

theorem mem_mode {α β : Type} (n : Nat) (l : List α) (l' : List β) (p : Nat × α × β) (h : p ∈ (List.range n).zip (l.zip l')) :
    l[p.1]? = some p.2.1 ∧ l'[p.1]? = some p.2.2 := by
  obtain ⟨i, hi, rfl⟩ := List.getElem_of_mem h
  simp only [List.length_zip, List.length_range, lt_min_iff] at hi
  simp only [List.getElem_zip, List.getElem_range]
  exact ⟨List.getElem?_eq_getElem hi.2.1, List.getElem?_eq_getElem hi.2.2⟩

theorem freqPP_ok (A : AnalyzeArgs) (hm : 0 < A.m) (hq : 0 < A.q) (hl : 0 < A.l) (c : ℝ) :
    (0 ≤ c → ∃ g, (freqPP A c).map (· / 1e6) = some g ∧ 0 ≤ g ∧ A.m * (2 * π * (g * 1e6)) ^ 2 = A.q * c / A.l ^ 2) ∧
      (c < 0 → (freqPP A c).map (· / 1e6) = none) := by
  unfold freqPP
  refine ⟨fun hc => ?_, fun hc => ?_⟩
  · have h0 : 0 ≤ A.q * c / A.m := by positivity
    rw [if_pos h0]
    refine ⟨_, rfl, by positivity, ?_⟩
    have hs := Real.sq_sqrt h0
    generalize √(A.q * c / A.m) = r at hs
    have : 2 * π * (r / (2 * π * A.l) / 1e6 * 1e6) = r / A.l := by field_simp
    rw [this, div_pow, hs]
    field_simp
  · have h0 : ¬ 0 ≤ A.q * c / A.m := by
      rw [not_le]
      exact div_neg_of_neg_of_pos (mul_neg_of_pos_of_neg hq hc) hm
    rw [if_neg h0]
    rfl

end Analyze
open Analyze

/-- C89: when the report comes to its end without an exception, every line is right: it says what the functions `minimum`,
`saddle`, `modes`, `mathieu` and the potentials give for the point, in the units stated. -/
theorem c89_report_partial (k : PhysConst) (hamu : k.amu ≠ 0) (hqe : k.qe ≠ 0) (lib : AnalyzeLib) (s : Sys) (x : Fin 3 → ℝ) (A : AnalyzeArgs)
    (hm : 0 < A.m) (hq : 0 < A.q) (hl : 0 < A.l) (hh : k.h ≠ 0) (lines : List Line) (h : analyzeStatic k lib s x A = (lines, none)) :
    ∃ c F, s.rfCoeff = some c ∧ IsFound lib s.els c x A F ∧ ∀ line ∈ lines, LineOk k s x A F line := by
  obtain ⟨els, rc⟩ := s
  unfold analyzeStatic at h
  cases rc with
  | none => simp at h
  | some c =>
  simp only at h
  obtain ⟨l1, h1, rfl⟩ := say_none h
  obtain ⟨trap, ht, h2⟩ := runs_none h1
  obtain ⟨l2, h3, rfl⟩ := say_none h2
  obtain ⟨pdc, hpdc, h4⟩ := runs_none h3
  obtain ⟨prf, hprf, h5⟩ := runs_none h4
  obtain ⟨l3, h6, rfl⟩ := say_none h5
  obtain ⟨fdc, hfdc, h7⟩ := runs_none h6
  obtain ⟨frf, hfrf, h8⟩ := runs_none h7
  obtain ⟨l4, h9, rfl⟩ := say_none h8
  unfold modesReport at h9
  obtain ⟨⟨ew, ev⟩, hmod, h10⟩ := runs_none h9
  obtain ⟨mb, hmat, h11⟩ := runs_none h10
  simp only at h11
  obtain ⟨l5, h12, rfl⟩ := say_none h11
  obtain ⟨mj1, e1, l6, ha1, he1, h13, rfl⟩ := modeReport_inv h12
  obtain ⟨mj2, e2, l7, ha2, he2, h14, rfl⟩ := modeReport_inv h13
  unfold heatingReport at h14
  obtain ⟨ind, hind, h15⟩ := runs_none h14
  simp only at h15
  obtain ⟨l8, h16, rfl⟩ := say_none h15
  have hpd := electrical_inv els (toV3 x) 0 (by omega) .dc pdc hpdc [] rfl
  have hpr := pseudo_inv ⟨els, some c⟩ (toV3 x) prf [] hprf
  have hfd : ∀ a, row3of fdc a = electricalAt els .dc [a] (toV3 x) := fun a => by
    rw [← electrical_inv els (toV3 x) 1 (by omega) .dc fdc hfdc [a] rfl]; simp [row3of, rowMajor]
  have hfr : ∀ a, row3of frf a = pseudoAt ⟨els, some c⟩ [a] (toV3 x) := fun a => by
    rw [← pseudo_inv ⟨els, some c⟩ (toV3 x) frf [a] hfrf]; simp [row3of, rowMajor]
  simp only [rowMajor, List.foldl_nil] at hpd hpr
  have hse := individual_inv els (toV3 x) ind hind
  have htot : totalAt ⟨els, some c⟩ [] (toV3 x) = (pdc.getD 0 []).getD 0 0 + (prf.getD 0 []).getD 0 0 := by
    have ha : AvailAll els 0 .dc := by
      by_contra hn; rw [electrical_err els _ _ .dc _ hn] at hpdc; cases hpdc
    have hu := electrical_expand_eq els [toV3 x] 0 (by omega) .dc ha
    obtain ⟨⟨r, hr, -, hv⟩, -⟩ := c34_potential ⟨els, some c⟩ [toV3 x] 0 _ prf hu hprf
    have e1 : electricalAt els .dc [] (toV3 x) = at2 ([toV3 x].map fun p => flatten 0 fun l => sysTens els .dc l p) 0 0 := by
      unfold electricalAt; rw [show ([] : List (Fin 3)).length = 0 from rfl, hu]; rfl
    have e2 : totalAt ⟨els, some c⟩ [] (toV3 x) = at2 r 0 0 := by
      unfold totalAt; rw [show ([] : List (Fin 3)).length = 0 from rfl, hr]; rfl
    rw [e2, hv, ← e1, ← hpd]
    rfl
  refine ⟨c, ⟨trap, match lib.saddle fun a => x a + A.saddleOffset a with | .ok r => some r | .error _ => none, ew, ev,
    mb.map fun p => (p.1, fun a => (component 4 3 p.2 0 0 a).re)⟩, rfl, ⟨?_, ?_, hmod, mb, hmat, rfl⟩, ?_⟩
  · cases hmo : A.minOff
    · simpa [hmo] using ht
    · simpa [hmo] using ht.symm
  · cases hs : lib.saddle fun a => x a + A.saddleOffset a with
    | ok r => simp
    | error e => exact ⟨e, rfl⟩
  · generalize hF : (⟨trap, match lib.saddle fun a => x a + A.saddleOffset a with | .ok r => some r | .error _ => none, ew, ev,
      mb.map fun p => (p.1, fun a => (component 4 3 p.2 0 0 a).re)⟩ : Findings) = F
    have f1 : F.trap = trap := by rw [← hF]
    have f2 : F.saddle = match lib.saddle fun a => x a + A.saddleOffset a with | .ok r => some r | .error _ => none := by rw [← hF]
    have f3 : F.ew = ew := by rw [← hF]
    have f4 : F.ev = ev := by rw [← hF]
    have f5 : F.mu = mb.map fun p => (p.1, fun a => (component 4 3 p.2 0 0 a).re) := by rw [← hF]
    clear hF
    have fsq : ∀ v : Fin 3 → ℝ, noiseAlong (ind.map fun rows a => 1e-9 * row3of rows a / A.l) v = fieldSq els x A.l v := by
      intro v
      have e : (ind.map fun rows (a : Fin 3) => 1e-9 * row3of rows a / A.l)
          = els.map fun e (a : Fin 3) => 1e-9 * tensorAt e 1 [a] (toV3 x) / A.l := by
        have := congrArg (List.map fun (g : Fin 3 → ℝ) a => 1e-9 * g a / A.l) hse
        rwa [List.map_map, List.map_map] at this
      rw [e]
      unfold noiseAlong fieldSq
      rw [List.map_map]
      congr 1
      refine List.map_congr_left fun e _ => ?_
      simp only [Function.comp, Finset.mul_sum]
      congr 1
      exact Finset.sum_congr rfl fun a _ => by ring
    have hcol : ∀ j : Nat, ∀ f v, ((mb.take 3).map fun p => p.1.im * A.o / (2 * π))[j]? = some f →
        ((mb.take 3).map fun p => modeCol p.2)[j]? = some v → ∃ nu, F.mu[j]? = some (nu, v) ∧ f = nu.im * A.o / (2 * π) := by
      intro j f v h1 h2
      rw [List.getElem?_map] at h1 h2
      cases hj : (mb.take 3)[j]? with
      | none => rw [hj] at h1; cases h1
      | some p =>
        rw [hj] at h1 h2
        simp only [Option.map_some, Option.some.injEq] at h1 h2
        refine ⟨p.1, ?_, h1.symm⟩
        have hj' : mb[j]? = some p := by
          rw [List.getElem?_take] at hj
          split at hj
          · exact hj
          · cases hj
        rw [f5, List.getElem?_map, hj', ← h2, modeCol_eq]
        rfl
    simp only [List.forall_mem_append, List.forall_mem_cons, List.forall_mem_map]
    refine ⟨⟨trivial, ⟨?_, ?_, ?_, ?_, rfl⟩, trivial, rfl, ?_, by simp⟩, ⟨?_, ?_, by simp⟩, ⟨⟨⟨trivial, hpd, hpr, by simp⟩, ?_⟩, trivial, by simp⟩,
      ⟨hfd, ?_, hfr, ?_, trivial, by simp⟩, ⟨f3.symm, ?_, by simp⟩, ⟨trivial, ?_⟩, ?_, ⟨trivial, ?_⟩, ?_, ⟨⟨?_, ?_, by simp⟩, ?_⟩, ?_⟩
    · field_simp
      ring_nf
    · field_simp
    · field_simp
    · field_simp
    · intro a; field_simp
    · intro a; rw [f1]; ring
    · intro a; rw [f1]; field_simp
    · unfold saddleLines
      cases hs : lib.saddle fun a => x a + A.saddleOffset a with
      | error e =>
        rw [hs] at f2
        simpa [LineOk] using f2
      | ok r =>
        rw [hs] at f2
        obtain ⟨xs, xsp⟩ := r
        simp only [List.forall_mem_cons]
        refine ⟨⟨xs, xsp, f2, fun a => by ring⟩, ⟨xs, xsp, f2, fun a => by field_simp⟩, ⟨xs, xsp, f2, ?_⟩, by simp⟩
        rw [htot]; ring
    · intro a; beta_reduce; rw [hfd]; field_simp
    · intro a; beta_reduce; rw [hfr]; field_simp
    · show _ ↔ _
      rw [f5, List.forall_mem_map, decide_eq_true_iff]
    · intro p hp
      obtain ⟨h1, h2⟩ := mem_mode 3 _ _ p hp
      rw [List.getElem?_map] at h1
      cases hj : ew[p.1]? with
      | none => rw [hj] at h1; cases h1
      | some w =>
        rw [hj] at h1
        simp only [Option.map_some, Option.some.injEq] at h1
        have := freqPP_ok A hm hq hl w
        rw [h1] at this
        exact ⟨w, by rw [f3, hj], by rw [f4, h2], this⟩
    · intro R hR hc
      rw [f4] at hc
      exact euler_ok ev mj1 e1 ha1 he1 R hR hc
    · intro p hp
      obtain ⟨h1, h2⟩ := mem_mode 3 _ _ p hp
      rw [List.getElem?_map] at h1
      cases hj : ((mb.take 3).map fun p => p.1.im * A.o / (2 * π))[p.1]? with
      | none => rw [hj] at h1; cases h1
      | some f =>
        rw [hj] at h1
        simp only [Option.map_some, Option.some.injEq] at h1
        obtain ⟨nu, h3, h4⟩ := hcol p.1 f p.2.2 hj h2
        refine ⟨nu, h3, f / 1e6, by rw [← h1]; rfl, ?_⟩
        rw [h4]; field_simp
    · intro R hR hc
      refine euler_ok _ mj2 e2 ha2 he2 R hR ?_
      rw [← hc, f5, List.map_map, ← List.map_take]
      exact List.map_congr_left fun p _ => modeCol_eq p.2
    · show (1e-9 / 1e-9 : ℝ) = 1
      ring_nf
    · intro a
      rw [← fsq]
      unfold noiseAlong unit3
      simp
    · unfold heatingLines
      simp only [List.forall_mem_map]
      intro p hp
      obtain ⟨h1, h2⟩ := mem_mode 3 _ _ p hp
      rw [List.getElem?_map] at h2
      cases hj : ((mb.take 3).map fun p => modeCol p.2)[p.1]? with
      | none => rw [hj] at h2; cases h2
      | some v =>
        rw [hj] at h2
        simp only [Option.map_some, Option.some.injEq] at h2
        obtain ⟨nu, h3, h4⟩ := hcol p.1 _ v h1 hj
        rw [fsq] at h2
        refine ⟨nu, v, h3, ?_⟩
        rw [← h2, ← h4]
        refine ⟨rfl, fun h0 => ?_, fun h0 => ?_⟩
        · rw [if_pos (by rw [h0, mul_zero])]
        · have : 4 * A.m * k.h * p.2.1 ≠ 0 := by positivity
          rw [if_neg this]
          exact ⟨_, rfl, by field_simp⟩
    · unfold ionReport at h16
      split at h16
      · rename_i hion
        obtain ⟨r, -, h17⟩ := runs_none h16
        obtain ⟨l9, h18, rfl⟩ := say_none h17
        simp only [Prod.mk.injEq] at h18
        rw [← h18.1]
        simp only [List.append_nil, List.forall_mem_cons]
        exact ⟨trivial, hion, by simp⟩
      · simp only [Prod.mk.injEq] at h16
        rw [← h16.1]
        simp

/-- C89: the motion with the frequencies printed: after `rf_scale` with the same parameters, every line about a mode of the motion
with rf belongs to a solution of the equation of motion (C73), with four harmonics, that goes around at the frequency printed and whose
mean displacement is along the vector printed. -/
theorem c89_motion (k : PhysConst) (hamu : k.amu ≠ 0) (hqe : k.qe ≠ 0) (lib : AnalyzeLib) (heig : IsEig lib.eig) (s0 : Sys)
    (x : Fin 3 → ℝ) (A : AnalyzeArgs) (hm : 0 < A.m) (hq : 0 < A.q) (hl : 0 < A.l) (ho : A.o ≠ 0) (hh : k.h ≠ 0) (lines : List Line)
    (h : analyzeStatic k lib (s0.rfScale A.m A.q A.l A.o).1 x A = (lines, none)) (j : Nat) (f : Option ℝ) (v : Fin 3 → ℝ)
    (hj : Line.mode .mathieu j f v ∈ lines) :
    ∃ (nu : ℂ) (c : ℤ → Fin 3 → ℂ) (g : ℝ), f = some g ∧ 2 * π * (g * 1e6) = nu.im * A.o ∧ (v = fun a => (c 0 a).re) ∧
      let X := ionMotion 4 A.o nu c
      ∃ w : ℝ → Fin 3 → ℂ, ∀ t k, HasDerivAt (fun t => X t k) (w t k) t ∧ ∃ acc : ℂ, HasDerivAt (fun t => w t k) acc t ∧
        A.m * A.l ^ 2 * acc = -A.q * ∑ j, ((electricalAt s0.els .dc [k, j] (toV3 x) +
            Real.cos (A.o * t) * electricalAt s0.els .rf [k, j] (toV3 x) : ℝ) : ℂ) * X t j +
          A.q / 2 * ∑ j, (electricalAt s0.els .rf [k, j] (toV3 x) : ℂ) *
            (c 4 j * Complex.exp ((nu + Complex.I * (4 + 1)) * (A.o * t)) + c (-4) j * Complex.exp ((nu - Complex.I * (4 + 1)) * (A.o * t))) := by
  obtain ⟨c, F, hc, hF, hL⟩ := c89_report_partial k hamu hqe lib _ x A hm hq hl hh lines h
  obtain ⟨nu, h1, g, h2, h3⟩ := hL _ hj
  obtain ⟨M, hM, hmu⟩ := hF.mathieu
  have hc' : (s0.rfScale A.m A.q A.l A.o).2 = c := by
    have := (c32_rf_scale s0 A.m A.q A.l A.o).2.2
    rw [hc] at this
    exact (Option.some.inj this).symm
  rw [hmu, List.getElem?_map] at h1
  cases hp : M[j]? with
  | none => rw [hp] at h1; cases h1
  | some p =>
    rw [hp] at h1
    simp only [Option.map_some, Option.some.injEq, Prod.mk.injEq] at h1
    obtain ⟨rfl, rfl⟩ := h1
    have hM' : sysMathieu lib.eig lib.argsort s0.els (toV3 x) (s0.rfScale A.m A.q A.l A.o).2 4 true = .ok M := by
      rw [hc']; exact hM
    have := c73_motion lib.eig heig lib.argsort s0 (toV3 x) A.m A.q A.l A.o hm hq.le hl.ne' ho 4 true M hM' p.1 p.2
      (List.mem_of_getElem? hp)
    exact ⟨p.1, component 4 3 p.2 0, g, h2, h3, rfl, by exact_mod_cast this⟩

/-- C89: the lines of a report that comes to its end, for one ion and if at least three exponents have a nonnegative imaginary
part -/
theorem c89_complete (k : PhysConst) (lib : AnalyzeLib) (heigh : IsEigh lib.eigh) (hsort : IsArgsort lib.argsort) (s : Sys)
    (x : Fin 3 → ℝ) (A : AnalyzeArgs) (hi : A.ions ≤ 1) (lines : List Line) (h : analyzeStatic k lib s x A = (lines, none))
    (c : ℝ) (hc : s.rfCoeff = some c) (F : Findings) (hF : IsFound lib s.els c x A F) (h3 : 3 ≤ F.mu.length) :
    lines.map Line.kind = reportKinds F.saddle.isSome := by
  obtain ⟨els, rc⟩ := s
  simp only at hc
  subst hc
  unfold analyzeStatic at h
  simp only at h
  obtain ⟨l1, h1, rfl⟩ := say_none h
  obtain ⟨trap, ht, h2⟩ := runs_none h1
  obtain ⟨l2, h3', rfl⟩ := say_none h2
  obtain ⟨pdc, hpdc, h4⟩ := runs_none h3'
  obtain ⟨prf, hprf, h5⟩ := runs_none h4
  obtain ⟨l3, h6, rfl⟩ := say_none h5
  obtain ⟨fdc, hfdc, h7⟩ := runs_none h6
  obtain ⟨frf, hfrf, h8⟩ := runs_none h7
  obtain ⟨l4, h9, rfl⟩ := say_none h8
  unfold modesReport at h9
  obtain ⟨⟨ew, ev⟩, hmod, h10⟩ := runs_none h9
  obtain ⟨mb, hmat, h11⟩ := runs_none h10
  simp only at h11
  obtain ⟨l5, h12, rfl⟩ := say_none h11
  obtain ⟨mj1, e1, l6, ha1, he1, h13, rfl⟩ := modeReport_inv h12
  obtain ⟨mj2, e2, l7, ha2, he2, h14, rfl⟩ := modeReport_inv h13
  unfold heatingReport at h14
  obtain ⟨ind, hind, h15⟩ := runs_none h14
  simp only at h15
  obtain ⟨l8, h16, rfl⟩ := say_none h15
  have hl8 : l8 = [] := by
    unfold ionReport at h16
    rw [dif_neg (by omega)] at h16
    simp only [Prod.mk.injEq] at h16
    exact h16.1.symm
  subst hl8
  obtain ⟨he, hv, -⟩ := c43_modes lib.eigh heigh lib.argsort hsort ⟨els, some c⟩ (toV3 x) ew ev hmod
  obtain ⟨w0, w1, w2, rfl⟩ := List.length_eq_three.1 he
  obtain ⟨v0, v1, v2, rfl⟩ := List.length_eq_three.1 hv
  obtain ⟨M, hM, hmu⟩ := hF.mathieu
  rw [hM] at hmat
  obtain rfl := Except.ok.inj hmat
  rw [hmu, List.length_map] at h3
  obtain ⟨p0, p1, p2, hp⟩ := List.length_eq_three.1 (show (M.take 3).length = 3 by rw [List.length_take]; omega)
  have hsad : (saddleLines lib x A ((pdc.getD 0 []).getD 0 0 + (prf.getD 0 []).getD 0 0)).map Line.kind =
      if F.saddle.isSome then ["saddle", "saddle in micrometer", "saddle height"] else ["no saddle"] := by
    have := hF.saddle
    unfold saddleLines
    cases hs : F.saddle with
    | none => rw [hs] at this; obtain ⟨e, he⟩ := this; rw [he]; rfl
    | some r => rw [hs] at this; simp only at this; rw [this]; rfl
  rw [hp]
  simp only [List.map_append, hsad, reportKinds, List.map_cons, List.map_nil]
  simp [Line.kind, List.range_succ, heatingLines]

/-- C89: the report comes to its end for a system of cover, point and polygon electrodes, off the electrodes and for one ion, if
`rf_scale` was called, the minimum is found, and three exponents have a nonnegative imaginary part. -/
theorem c89_ends (k : PhysConst) (lib : AnalyzeLib) (heigh : IsEigh lib.eigh) (hsort : IsArgsort lib.argsort) (els : List Elec) (c : ℝ)
    (x : Fin 3 → ℝ) (A : AnalyzeArgs) (hi : A.ions ≤ 1) (hoff : offSystem els (toV3 x))
    (hmin : A.minOff = true ∨ ∃ p, minimum lib.minimize ⟨els, some c⟩ 1 .float (fun a => x a + A.minOffset a) [0, 1, 2] = .ok p)
    (hmu : ∀ M, sysMathieu lib.eig lib.argsort els (toV3 x) c 4 true = .ok M → 3 ≤ M.length) :
    ∃ lines, analyzeStatic k lib ⟨els, some c⟩ x A = (lines, none) := by
  have hav : ∀ d typ, AvailAll els d typ := fun d typ => avail_of_off hoff d typ
  have hav' : ∀ e ∈ els, e.shape.Avail 1 := by
    intro e he
    have := hoff e he
    unfold offElectrode at this
    cases hs : e.shape <;> rw [hs] at this <;> trivial
  have hsay : ∀ (ls : List Line) (r : Report), (∃ l, r = (l, none)) → ∃ l, Report.say ls r = (l, none) := by
    rintro ls r ⟨l, rfl⟩; exact ⟨_, rfl⟩
  have hrun : ∀ {α : Type} (r : Py α) (f : α → Report), (∃ a, r = .ok a ∧ ∃ l, f a = (l, none)) → ∃ l, Report.run r f = (l, none) := by
    rintro α r f ⟨a, rfl, l, h⟩; exact ⟨l, h⟩
  have heul : ∀ M, ∃ e, eulerFromMatrix M (.str ['r', 'z', 'x', 'z']) = .ok e := fun M => ⟨_, rfl⟩
  have hmode : ∀ (kind : ModeKind) (freqs : List (Option ℝ)) (cols : List (Fin 3 → ℝ)) (rest : Report), cols.length = 3 →
      (∃ l, rest = (l, none)) → ∃ l, modeReport kind freqs cols rest = (l, none) := by
    intro kind freqs cols rest hc hr
    obtain ⟨a, b, c, rfl⟩ := List.length_eq_three.1 hc
    unfold modeReport
    refine hsay _ _ (hrun _ _ ⟨_, rfl, hrun _ _ ?_⟩)
    obtain ⟨e, he⟩ := heul (homog fun i j => ![a i, b i, c i] j)
    exact ⟨e, he, hsay _ _ hr⟩
  unfold analyzeStatic
  refine hsay _ _ (hrun _ _ ?_)
  have htrap : ∃ p, (if A.minOff then .ok x else minimum lib.minimize ⟨els, some c⟩ 1 .float (fun a => x a + A.minOffset a) [0, 1, 2])
      = .ok p := by
    rcases hmin with h | ⟨p, h⟩
    · exact ⟨x, by rw [if_pos h]⟩
    · cases hb : A.minOff
      · exact ⟨p, by simpa using h⟩
      · exact ⟨x, by simp⟩
  obtain ⟨p, hp⟩ := htrap
  refine ⟨p, hp, hsay _ _ (hrun _ _ ⟨_, electrical_eq els _ 0 .dc (hav _ _), hrun _ _
    ⟨_, pseudo_eq els c _ 0 (by omega) fun i _ _ => hav i _, hsay _ _ (hrun _ _ ⟨_, electrical_eq els _ 1 .dc (hav _ _), hrun _ _
      ⟨_, pseudo_eq els c _ 1 (by omega) fun i _ _ => hav i _, hsay _ _ ?_⟩⟩)⟩⟩)⟩
  unfold modesReport
  have hpot : ∃ r, Sys.potential ⟨els, some c⟩ [toV3 x] 2 .tot = .ok r := by
    unfold Sys.potential
    rw [electrical_expand_eq els _ 2 (by omega) .dc (hav _ _), pseudo_eq els c _ 2 (by omega) fun i _ _ => hav i _]
    exact ⟨_, rfl⟩
  obtain ⟨r2, hr2⟩ := hpot
  obtain ⟨⟨ew, ev⟩, hm⟩ := (c43_fails lib.eigh lib.argsort ⟨els, some c⟩ (toV3 x) true).2 ⟨r2, hr2⟩
  obtain ⟨-, hv, -⟩ := c43_modes lib.eigh heigh lib.argsort hsort ⟨els, some c⟩ (toV3 x) ew ev hm
  have hM : ∃ M, sysMathieu lib.eig lib.argsort els (toV3 x) c 4 true = .ok M := by
    unfold sysMathieu
    rw [electrical_expand_eq els _ 2 (by omega) .dc (hav _ _), electrical_expand_eq els _ 2 (by omega) .rf (hav _ _)]
    exact ⟨_, rfl⟩
  obtain ⟨M, hM⟩ := hM
  have h3 := hmu M hM
  refine hrun _ _ ⟨_, hm, hrun _ _ ⟨M, hM, hsay _ _ (hmode _ _ _ _ hv (hmode _ _ _ _ ?_ ?_))⟩⟩
  · simp only [List.length_map, List.length_take]; omega
  · unfold heatingReport
    refine hrun _ _ ⟨els.map fun e => [toV3 x].map fun p => (List.range (2 * 1 + 1)).map fun i => e.shape.contrib 1 p i, ?_, ?_⟩
    · unfold individualPotential
      rw [pySeq_map_ok els _ fun e => [toV3 x].map fun p => (List.range (2 * 1 + 1)).map fun i => e.shape.contrib 1 p i]
      intro e he
      rw [Elec.potential_eq e _ 1 1 _ (by simp [zeroRows]) (hav' e he)]
      simp [zeroRows, addFn, List.range_succ]
    · refine hsay _ _ ⟨[], ?_⟩
      unfold ionReport
      rw [dif_neg (by omega)]

/-- C89: `rf_scale` must be called first -/
theorem c89_needs_rf_scale (k : PhysConst) (lib : AnalyzeLib) (els : List Elec) (x : Fin 3 → ℝ) (A : AnalyzeArgs) :
    analyzeStatic k lib ⟨els, none⟩ x A = ([], some .attributeError) := rfl

/-- C89: contrary to its description, the argument `axis` has no influence: minimum and saddle point are searched in all
directions. -/
theorem c89_axis_ignored (k : PhysConst) (lib : AnalyzeLib) (s : Sys) (x : Fin 3 → ℝ) (A : AnalyzeArgs) (axis : List (Fin 3)) :
    analyzeStatic k lib s x { A with axis := axis } = analyzeStatic k lib s x A := rfl

/-- C89: with more than one ion the report always ends with an exception.  (The eigenvalue solver returns at least one value.) -/
theorem c89_ions (k : PhysConst) (lib : AnalyzeLib) (hew : ∀ c ew ev, lib.eighIons c = .ok (ew, ev) → ew ≠ []) (els : List Elec)
    (c : ℝ) (x : Fin 3 → ℝ) (A : AnalyzeArgs) (hi : 1 < A.ions) (lines : List Line) :
    analyzeStatic k lib ⟨els, some c⟩ x A ≠ (lines, none) := by
  intro h
  unfold analyzeStatic at h
  simp only at h
  obtain ⟨l1, h1, rfl⟩ := say_none h
  obtain ⟨trap, ht, h2⟩ := runs_none h1
  obtain ⟨l2, h3', rfl⟩ := say_none h2
  obtain ⟨pdc, hpdc, h4⟩ := runs_none h3'
  obtain ⟨prf, hprf, h5⟩ := runs_none h4
  obtain ⟨l3, h6, rfl⟩ := say_none h5
  obtain ⟨fdc, hfdc, h7⟩ := runs_none h6
  obtain ⟨frf, hfrf, h8⟩ := runs_none h7
  obtain ⟨l4, h9, rfl⟩ := say_none h8
  unfold modesReport at h9
  obtain ⟨⟨ew, ev⟩, hmod, h10⟩ := runs_none h9
  obtain ⟨mb, hmat, h11⟩ := runs_none h10
  simp only at h11
  obtain ⟨l5, h12, rfl⟩ := say_none h11
  obtain ⟨mj1, e1, l6, ha1, he1, h13, rfl⟩ := modeReport_inv h12
  obtain ⟨mj2, e2, l7, ha2, he2, h14, rfl⟩ := modeReport_inv h13
  unfold heatingReport at h14
  obtain ⟨ind, hind, h15⟩ := runs_none h14
  simp only at h15
  obtain ⟨l8, h16, rfl⟩ := say_none h15
  unfold ionReport at h16
  rw [dif_pos hi] at h16
  obtain ⟨r, hr, h17⟩ := runs_none h16
  obtain ⟨l9, h18, rfl⟩ := say_none h17
  simp only [Prod.mk.injEq] at h18
  have hne : r.ew ≠ [] := by
    unfold ions at hr
    split at hr
    · cases hr
    · split at hr
      · cases hr
      · split at hr
        · cases hr
        · rename_i heq
          obtain rfl := Except.ok.inj hr
          exact hew _ _ _ heq
  rw [if_neg hne] at h18
  cases h18.2

/-- C89: closing the generator while it is at the lines about the saddle point raises `RuntimeError`: a bare `except` catches the
request to stop.  The lines are those from number 11 on, if the saddle point was found. -/
theorem c89_close (k : PhysConst) (lib : AnalyzeLib) (els : List Elec) (c : ℝ) (x : Fin 3 → ℝ) (A : AnalyzeArgs) (lines : List Line)
    (h : analyzeStatic k lib ⟨els, some c⟩ x A = (lines, none)) (r) (hs : lib.saddle (fun a => x a + A.saddleOffset a) = .ok r) :
    analyzeClose (lines, none) 11 = some (.user 0) ∧ analyzeClose (lines, none) 10 = none := by
  unfold analyzeStatic at h
  simp only at h
  obtain ⟨l1, h1, rfl⟩ := say_none h
  obtain ⟨trap, ht, h2⟩ := runs_none h1
  obtain ⟨l2, h3', rfl⟩ := say_none h2
  obtain ⟨pdc, hpdc, h4⟩ := runs_none h3'
  obtain ⟨prf, hprf, h5⟩ := runs_none h4
  obtain ⟨l3, h6, rfl⟩ := say_none h5
  unfold saddleLines
  rw [hs]
  constructor <;> simp [analyzeClose, Line.inTry]

/-- C89: closing the generator raises exactly after one of the lines about the saddle point; not before the first line and not after the generator has
ended. -/
theorem c89_close_when (r : Report) (n : Nat) (e : PyErr) :
    analyzeClose r n = some e ↔ e = .user 0 ∧ 1 ≤ n ∧ ∃ line, r.1[n - 1]? = some line ∧
      ((∃ v, line = .saddle v) ∨ (∃ v, line = .saddleMicron v) ∨ ∃ v, line = .saddleHeight v) := by
  have ht : ∀ line : Line, line.inTry = true ↔ (∃ v, line = .saddle v) ∨ (∃ v, line = .saddleMicron v) ∨ ∃ v, line = .saddleHeight v := by
    intro line
    cases line <;> simp [Line.inTry]
  unfold analyzeClose
  rcases Nat.eq_zero_or_pos n with rfl | hn
  · simp
  · rcases le_or_gt n r.1.length with hl | hl
    · have h1 : (r.1.take n).getLast? = r.1[n - 1]? := by
        rw [List.getLast?_eq_getElem?, List.length_take, min_eq_left hl, List.getElem?_take, if_pos (by omega)]
      have h2 : r.1[n - 1]? = some (r.1[n - 1]'(by omega)) := List.getElem?_eq_getElem _
      rw [h1, h2]
      simp only [hl, true_and, Option.some.injEq, exists_eq_left', ← ht]
      constructor
      · intro h
        split at h
        · next h3 => exact ⟨(Option.some.inj h).symm, hn, h3⟩
        · cases h
      · rintro ⟨rfl, -, h⟩
        rw [if_pos h]
    · have h3 : ¬ n ≤ r.1.length := by omega
      have h4 : r.1[n - 1]? = none := List.getElem?_eq_none (by omega)
      rw [h4]
      simp only [h3, false_and, if_false]
      constructor
      · intro h
        split at h <;> cases h
      · rintro ⟨-, -, l, h, -⟩
        cases h

/-! ### heating rates -/

namespace Analyze

theorem fieldSq_smul (els : List Elec) (x : Fin 3 → ℝ) (l t : ℝ) (u : Fin 3 → ℝ) :
    fieldSq els x l (fun a => t * u a) = t ^ 2 * fieldSq els x l u := by
  unfold fieldSq
  rw [← List.sum_map_mul_left]
  congr 1
  refine List.map_congr_left fun e _ => ?_
  simp only [Fin.sum_univ_three]
  ring

theorem fieldSq_nonneg (els : List Elec) (x : Fin 3 → ℝ) (l : ℝ) (u : Fin 3 → ℝ) : 0 ≤ fieldSq els x l u := by
  unfold fieldSq
  refine List.sum_nonneg fun y hy => ?_
  obtain ⟨e, -, rfl⟩ := List.mem_map.1 hy
  positivity

/-- the part of a unit eigenvector printed as mode vector is shorter than one -/
theorem part_le (r : Nat) (w : Fin ((2 * r + 1) * 2 * 3) → ℂ) (hw : ∑ i, ‖w i‖ ^ 2 = 1) (mu : ℂ)
    (h1 : ∀ k, component r 3 w 1 0 k = mu * component r 3 w 0 0 k) :
    (∑ a, (component r 3 w 0 0 a).re ^ 2) * (1 + ‖mu‖ ^ 2) ≤ 1 := by
  have hr : (⟨r, by omega⟩ : Fin (2 * r + 1)).val = r := rfl
  have hc0 : ∀ a, component r 3 w 0 0 a = w (flatEquiv r 3 (⟨r, by omega⟩, 0, a)) := fun a => by
    have := component_eq r w 0 ⟨r, by omega⟩ a
    simpa using this
  have hc1 : ∀ a, component r 3 w 1 0 a = w (flatEquiv r 3 (⟨r, by omega⟩, 1, a)) := fun a => by
    have := component_eq r w 1 ⟨r, by omega⟩ a
    simpa using this
  have hsum : ∑ i, ‖w i‖ ^ 2 = ∑ l : Fin (2 * r + 1), ∑ d : Fin 2, ∑ a : Fin 3, ‖w (flatEquiv r 3 (l, d, a))‖ ^ 2 := by
    rw [← (flatEquiv r 3).sum_comp, Fintype.sum_prod_type]
    refine Finset.sum_congr rfl fun l _ => ?_
    rw [Fintype.sum_prod_type]
  have hone : ∑ d : Fin 2, ∑ a : Fin 3, ‖w (flatEquiv r 3 (⟨r, by omega⟩, d, a))‖ ^ 2 ≤ ∑ i, ‖w i‖ ^ 2 := by
    rw [hsum]
    exact Finset.single_le_sum (f := fun l : Fin (2 * r + 1) => ∑ d : Fin 2, ∑ a : Fin 3, ‖w (flatEquiv r 3 (l, d, a))‖ ^ 2)
      (fun l _ => Finset.sum_nonneg fun d _ => Finset.sum_nonneg fun a _ => by positivity) (Finset.mem_univ _)
  rw [hw, Fin.sum_univ_two] at hone
  have hre : ∀ z : ℂ, z.re ^ 2 ≤ ‖z‖ ^ 2 := fun z => by
    rw [← sq_abs]
    exact pow_le_pow_left₀ (abs_nonneg _) (Complex.abs_re_le_norm z) 2
  have e1 : ∑ a : Fin 3, ‖w (flatEquiv r 3 (⟨r, by omega⟩, 1, a))‖ ^ 2 = ‖mu‖ ^ 2 * ∑ a : Fin 3, ‖w (flatEquiv r 3 (⟨r, by omega⟩, 0, a))‖ ^ 2 := by
    rw [Finset.mul_sum]
    refine Finset.sum_congr rfl fun a _ => ?_
    rw [← hc1, h1, hc0, norm_mul, mul_pow]
  rw [e1] at hone
  have h2 : ∑ a, (component r 3 w 0 0 a).re ^ 2 ≤ ∑ a : Fin 3, ‖w (flatEquiv r 3 (⟨r, by omega⟩, 0, a))‖ ^ 2 :=
    Finset.sum_le_sum fun a _ => by rw [hc0]; exact hre _
  have h3 : 0 ≤ ‖mu‖ ^ 2 := by positivity
  nlinarith [mul_le_mul_of_nonneg_right h2 (by linarith : 0 ≤ 1 + ‖mu‖ ^ 2)]

end Analyze
open Analyze

/-- **C89** (negation): the heating rates are too low.  The mode vectors of the motion with rf are parts of the unit vectors that
`eig` returns; nothing brings them to length one.  The noise along the direction `u` of a mode is underestimated at least by the
factor `1 + |2 nu|^2`. -/
theorem c89_heating_low (lib : AnalyzeLib) (heig : IsEig lib.eig) (hunit : ∀ N M j, ∑ i, ‖(lib.eig N M).2 i j‖ ^ 2 = 1)
    (els : List Elec) (c : ℝ) (x : Fin 3 → ℝ) (A : AnalyzeArgs) (F : Findings) (hF : IsFound lib els c x A F) (nu : ℂ)
    (v : Fin 3 → ℝ) (hv : (nu, v) ∈ F.mu) :
    (∑ a, v a ^ 2) * (1 + ‖2 * nu‖ ^ 2) ≤ 1 ∧
      ∀ (t : ℝ) (u : Fin 3 → ℝ), ∑ a, u a ^ 2 = 1 → (v = fun a => t * u a) →
        fieldSq els x A.l v * (1 + ‖2 * nu‖ ^ 2) ≤ fieldSq els x A.l u := by
  have key : (∑ a, v a ^ 2) * (1 + ‖2 * nu‖ ^ 2) ≤ 1 := by
    obtain ⟨M, hM, hmu⟩ := hF.mathieu
    rw [hmu] at hv
    obtain ⟨p, hp, he⟩ := List.mem_map.1 hv
    simp only [Prod.mk.injEq] at he
    obtain ⟨rfl, rfl⟩ := he
    obtain ⟨mu, b, hb, rfl⟩ := sysMathieu_inv _ _ _ _ _ _ _ _ hM
    obtain ⟨q, hq, rfl⟩ := List.mem_map.1 hp
    obtain ⟨j, -, rfl⟩ := List.mem_map.1 (mem_sortModes hq)
    obtain ⟨-, h1, -⟩ := c41_recurrence lib.eig heig 4 _ hb j
    have hw : ∑ i, ‖b i j‖ ^ 2 = 1 := by
      have hb' := Except.ok.inj hb
      have := hunit _ (floquetMatrix 4 [fun i j => ((16 * c ^ 2 * electricalAt els .dc [i, j] (toV3 x) : ℝ) : ℂ),
        fun i j => ((8 * c ^ 2 * electricalAt els .rf [i, j] (toV3 x) : ℝ) : ℂ)]) j
      rw [hb'] at this
      exact this
    have := part_le 4 (fun i => b i j) hw (mu j) fun k => by
      have := h1 0 (by norm_num) k
      simpa using this
    simp only
    rw [mul_div_cancel₀ _ (two_ne_zero)]
    exact this
  refine ⟨key, ?_⟩
  rintro t u hu rfl
  rw [fieldSq_smul]
  have ht : ∑ a, (t * u a) ^ 2 = t ^ 2 := by
    have : ∀ a, (t * u a) ^ 2 = t ^ 2 * u a ^ 2 := fun a => mul_pow _ _ _
    simp only [this]
    rw [← Finset.mul_sum, hu, mul_one]
  rw [ht] at key
  have := fieldSq_nonneg els x A.l u
  nlinarith

/-! ### Euler angles -/

namespace Analyze

theorem takeIdx_cols (V : Matrix (Fin 3) (Fin 3) ℝ) :
    takeIdx ((List.finRange 3).map fun j i => V i j) (List.range 3) = List.ofFn V.transpose := by
  change _ = List.ofFn (fun j i => V i j)
  simp [takeIdx, List.range_succ, List.finRange_succ, List.ofFn_succ]

theorem improper_far {R Q : Matrix (Fin 3) (Fin 3) ℝ} (hR : R * R.transpose = 1) (hd : R.det = -1) (hQ : IsRotation Q) :
    ∃ p q, 2 / 3 ≤ |Q p q - R p q| := by
  have hR' : R.transpose * R = 1 := mul_eq_one_comm.1 hR
  have hdet : (Q + R).det = 0 := by
    have e : (Q + R) = Q * (R.transpose + Q.transpose) * R := by
      rw [mul_add, add_mul, mul_assoc, hR', mul_one, hQ.1, one_mul]
    have e2 : (R.transpose + Q.transpose).det = (Q + R).det := by
      rw [← Matrix.transpose_add, Matrix.det_transpose, add_comm]
    have := congrArg Matrix.det e
    rw [Matrix.det_mul, Matrix.det_mul, hQ.2, hd, e2] at this
    linarith
  obtain ⟨v, hv, hv0⟩ := Matrix.exists_mulVec_eq_zero_iff.2 hdet
  by_contra hcon
  push Not at hcon
  -- (Q - R) v = 2 Q v
  have h2 : (Q - R).mulVec v = (2 : ℝ) • Q.mulVec v := by
    rw [Matrix.sub_mulVec]
    rw [Matrix.add_mulVec] at hv0
    rw [eq_neg_of_add_eq_zero_right hv0, sub_neg_eq_add, two_smul]
  have hnorm : Q.mulVec v ⬝ᵥ Q.mulVec v = v ⬝ᵥ v := by
    rw [Matrix.dotProduct_mulVec, ← Matrix.mulVec_transpose, Matrix.mulVec_mulVec, mul_eq_one_comm.1 hQ.1, Matrix.one_mulVec]
  have hvv : 0 < v ⬝ᵥ v := by
    have : v ⬝ᵥ v ≠ 0 := by rwa [Ne, dotProduct_self_eq_zero]
    have h0 : 0 ≤ v ⬝ᵥ v := Finset.sum_nonneg fun i _ => mul_self_nonneg _
    exact lt_of_le_of_ne h0 (Ne.symm this)
  have hdd : (Q - R).mulVec v ⬝ᵥ (Q - R).mulVec v = 4 * (v ⬝ᵥ v) := by
    rw [h2, smul_dotProduct, dotProduct_smul, hnorm, smul_eq_mul, smul_eq_mul]; ring
  have hrow : ∀ i, ((Q - R).mulVec v i) ^ 2 ≤ (∑ j, (Q i j - R i j) ^ 2) * (v ⬝ᵥ v) := by
    intro i
    have := Finset.sum_mul_sq_le_sq_mul_sq Finset.univ (fun j => Q i j - R i j) v
    simpa [Matrix.mulVec, dotProduct, sq] using this
  have hent : ∀ i, ∑ j, (Q i j - R i j) ^ 2 < 4 / 3 := by
    intro i
    have : ∀ j, (Q i j - R i j) ^ 2 < 4 / 9 := by
      intro j
      have h1 := hcon i j
      have := abs_nonneg (Q i j - R i j)
      rw [← sq_abs]
      nlinarith
    rw [Fin.sum_univ_three]
    linarith [this 0, this 1, this 2]
  have : (Q - R).mulVec v ⬝ᵥ (Q - R).mulVec v < 4 * (v ⬝ᵥ v) := by
    have e : (Q - R).mulVec v ⬝ᵥ (Q - R).mulVec v = ∑ i, ((Q - R).mulVec v i) ^ 2 := by simp [dotProduct, sq]
    rw [e, Fin.sum_univ_three]
    have hs : ∀ i, ((Q - R).mulVec v i) ^ 2 < 4 / 3 * (v ⬝ᵥ v) := fun i => lt_of_le_of_lt (hrow i) (mul_lt_mul_of_pos_right (hent i) hvv)
    linarith [hs 0, hs 1, hs 2]
  linarith

/-- another choice of eigenvectors: with determinant `-1` -/
theorem exists_improper : ∃ eigh, IsEigh eigh ∧ ∀ A : Matrix (Fin 3) (Fin 3) ℝ, (∀ i j, A i j = A j i) → (eigh 3 A).2.det = -1 := by
  classical
  obtain ⟨eigh, h⟩ := exists_isEigh
  let sg : ∀ N, Matrix (Fin N) (Fin N) ℝ → Fin N → ℝ := fun N A j => if j.val = 0 ∧ (eigh N A).2.det = 1 then -1 else 1
  have hsg : ∀ N A j, sg N A j * sg N A j = 1 := by
    intro N A j
    simp only [sg]
    split <;> norm_num
  refine ⟨fun N A => ((eigh N A).1, fun i j => (eigh N A).2 i j * sg N A j), fun N A hA => ?_, fun A hA => ?_⟩
  · obtain ⟨h1, h2, h3, h4⟩ := h N A hA
    refine ⟨h1, h2, fun i j => ?_, fun j j' => ?_⟩
    · simp only
      have := h3 i j
      rw [← mul_assoc, ← this, Finset.sum_mul]
      exact Finset.sum_congr rfl fun k _ => by ring
    · simp only
      have := h4 j j'
      have e : ∑ i, (eigh N A).2 i j * sg N A j * ((eigh N A).2 i j' * sg N A j') =
          (∑ i, (eigh N A).2 i j * (eigh N A).2 i j') * (sg N A j * sg N A j') := by
        rw [Finset.sum_mul]
        exact Finset.sum_congr rfl fun k _ => by ring
      rw [e, this]
      split
      · rename_i hjj; subst hjj; rw [hsg, one_mul]
      · rw [zero_mul]
  · obtain ⟨-, -, -, h4⟩ := h 3 A hA
    have hort : (eigh 3 A).2.transpose * (eigh 3 A).2 = 1 := by
      ext i j
      rw [Matrix.mul_apply, Matrix.one_apply]
      exact h4 i j
    have hdd : (eigh 3 A).2.det * (eigh 3 A).2.det = 1 := by
      have := congrArg Matrix.det hort
      rwa [Matrix.det_mul, Matrix.det_transpose, Matrix.det_one] at this
    have hfl : (fun i j => (eigh 3 A).2 i j * sg 3 A j : Matrix (Fin 3) (Fin 3) ℝ) = (eigh 3 A).2 * Matrix.diagonal (sg 3 A) := by
      ext i j
      rw [Matrix.mul_diagonal]
    simp only
    rw [hfl, Matrix.det_mul, Matrix.det_diagonal, Fin.prod_univ_three]
    rcases mul_self_eq_one_iff.1 hdd with hd | hd
    · simp [sg, hd]
    · have : ¬((-1 : ℝ) = 1) := by norm_num
      simp [sg, hd, this]

end Analyze

/-- **C89** (negation): the Euler angles can be those of another frame.  Eigenvectors are determined up to their signs, and nothing
makes the matrix of the modes a rotation: there is an `eigh` that satisfies all that is asked of it, and whose eigenvectors always
form an orthogonal matrix of determinant `-1`.  Whatever the angles, the rotation they describe then has an entry that differs by
at least `2/3`. -/
theorem c89_improper : ∃ (eigh : Eigh) (argsort : Argsort), IsEigh eigh ∧ IsArgsort argsort ∧
    ∀ (s : Sys) (x : V3) (ew : List ℝ) (ev : List (Fin 3 → ℝ)), modes eigh argsort s x true = .ok (ew, ev) →
      ∃ R : Matrix (Fin 3) (Fin 3) ℝ, ev = List.ofFn R.transpose ∧
        ∀ (a b c : ℝ) (M' : Matrix (Fin 4) (Fin 4) ℝ) (R' : Matrix (Fin 3) (Fin 3) ℝ),
          eulerMatrix a b c (.str ['r', 'z', 'x', 'z']) = .ok M' → Homog M' R' → ∃ p q, 2 / 3 ≤ |R' p q - R p q| := by
  obtain ⟨eigh, h1, hdet⟩ := exists_improper
  obtain ⟨argsort, h2, hk⟩ := exists_keepsSorted
  refine ⟨eigh, argsort, h1, h2, fun s x ew ev h => ?_⟩
  unfold modes at h
  cases hp : s.potential [x] 2 .tot with
  | error e => rw [hp] at h; cases h
  | ok p =>
    rw [hp] at h
    simp only [if_true] at h
    have hsym : ∀ i j, row0Matrix p i j = row0Matrix p j i := fun i j => by
      rw [row0Matrix_total s x p hp, row0Matrix_total s x p hp, hessian_symm s x p hp]
    obtain ⟨hl, hasc, -, hort⟩ := h1 3 _ hsym
    rw [hk _ hasc, hl] at h
    obtain ⟨-, rfl⟩ := Prod.mk.inj (Except.ok.inj h)
    refine ⟨(eigh 3 (row0Matrix p)).2, ?_, ?_⟩
    · exact takeIdx_cols _
    · intro a b c M' R' hM hR
      obtain ⟨Q, hQ, hrot⟩ := c67_rotation _ _ _ _ _ hM
      have : R' = Q := by
        ext i j
        rw [← hR.1, hQ.1]
      subst this
      refine improper_far ?_ (hdet _ hsym) hrot
      refine mul_eq_one_comm.1 ?_
      ext i j
      rw [Matrix.mul_apply, Matrix.one_apply]
      exact hort i j

/-! ### the hypotheses are met -/

namespace Analyze

/-- an `eig` that prefers eigenvalues with a nonnegative imaginary part, with unit vectors -/
theorem exists_eig_up : ∃ eig, IsEig eig ∧ (∀ N M j, ∑ i, ‖(eig N M).2 i j‖ ^ 2 = 1) ∧
    ∀ N M, (∃ (mu : ℂ) (w : Fin N → ℂ), M.mulVec w = mu • w ∧ w ≠ 0 ∧ 0 ≤ mu.im) → ∀ j, 0 ≤ ((eig N M).1 j).im := by
  classical
  obtain ⟨eig, h⟩ := exists_isEig
  have key : ∀ (N : Nat) (M : Matrix (Fin N) (Fin N) ℂ) (j : Fin N), ∃ (mu : ℂ) (w : Fin N → ℂ), M.mulVec w = mu • w ∧ w ≠ 0 ∧
      ∑ i, ‖w i‖ ^ 2 = 1 ∧ ((∃ (mu : ℂ) (w : Fin N → ℂ), M.mulVec w = mu • w ∧ w ≠ 0 ∧ 0 ≤ mu.im) → 0 ≤ mu.im) := by
    intro N M j
    have h1 : ∃ (mu : ℂ) (w : Fin N → ℂ), M.mulVec w = mu • w ∧ w ≠ 0 ∧
        ((∃ (mu : ℂ) (w : Fin N → ℂ), M.mulVec w = mu • w ∧ w ≠ 0 ∧ 0 ≤ mu.im) → 0 ≤ mu.im) := by
      by_cases hx : ∃ (mu : ℂ) (w : Fin N → ℂ), M.mulVec w = mu • w ∧ w ≠ 0 ∧ 0 ≤ mu.im
      · obtain ⟨mu, w, a, b, c⟩ := hx
        exact ⟨mu, w, a, b, fun _ => c⟩
      · exact ⟨_, _, (h N M j).1, (h N M j).2, fun hy => absurd hy hx⟩
    obtain ⟨mu, w, a, b, c⟩ := h1
    have hpos : 0 < ∑ i, ‖w i‖ ^ 2 := by
      obtain ⟨i, hi⟩ := Function.ne_iff.1 b
      exact Finset.sum_pos' (fun _ _ => by positivity) ⟨i, Finset.mem_univ _, by
        have := norm_pos_iff.2 hi
        positivity⟩
    set S := √(∑ i, ‖w i‖ ^ 2) with hS
    have hS0 : 0 < S := Real.sqrt_pos.2 hpos
    have hne : ((S⁻¹ : ℝ) : ℂ) ≠ 0 := by exact_mod_cast (inv_pos.2 hS0).ne'
    refine ⟨mu, ((S⁻¹ : ℝ) : ℂ) • w, ?_, smul_ne_zero hne b, ?_, c⟩
    · rw [Matrix.mulVec_smul, a, smul_comm]
    · have : ∀ i, ‖(((S⁻¹ : ℝ) : ℂ) • w) i‖ ^ 2 = S⁻¹ ^ 2 * ‖w i‖ ^ 2 := by
        intro i
        rw [Pi.smul_apply, smul_eq_mul, norm_mul, mul_pow, Complex.norm_real, Real.norm_eq_abs, sq_abs]
      simp only [this]
      rw [← Finset.mul_sum, inv_pow, hS, Real.sq_sqrt hpos.le, inv_mul_cancel₀ hpos.ne']
  choose mu w hw using key
  exact ⟨fun N M => (fun j => mu N M j, fun i j => w N M j i), fun N M j => ⟨(hw N M j).1, (hw N M j).2.1⟩,
    fun N M j => (hw N M j).2.2.1, fun N M hx j => (hw N M j).2.2.2 hx⟩

/-- a cover electrode has no curvature -/
theorem cover_flat (typ : VTyp) (i j : Fin 3) (p : V3) : electricalAt [⟨"a", 1, 2, .cover 1⟩] typ [i, j] p = 0 := by
  have hav : AvailAll [⟨"a", 1, 2, .cover 1⟩] 2 typ := fun e he _ => by
    simp only [List.mem_singleton] at he
    subst he
    trivial
  have h0 : ∀ l : Idx, l.length = 2 → sysTens [⟨"a", 1, 2, .cover 1⟩] typ l p = 0 := by
    intro l hl
    unfold sysTens tens
    rw [hl]
    have e : ((List.range (2 * 2 + 1)).map fun i => sysContrib [⟨"a", 1, 2, .cover 1⟩] typ 2 i p) = List.replicate 5 0 := by
      simp [sysContrib, Shape.contrib, coverContrib, List.range_succ]
    rw [e]
    have e2 : ∀ i, (List.replicate 5 (0 : ℝ)).getD i 0 = 0 := fun i => by
      rw [List.getD_eq_getElem?_getD, List.getElem?_replicate]
      split <;> rfl
    cases entrySel 2 l <;> simp only [selVal, e2] <;> norm_num
  rw [electricalAt_eq _ typ [i, j] (by simp) p hav]
  exact h0 _ rfl

theorem cover_ends : ∃ (lib : AnalyzeLib), IsEig lib.eig ∧ IsEigh lib.eigh ∧ IsArgsort lib.argsort ∧
    (∀ N M j, ∑ i, ‖(lib.eig N M).2 i j‖ ^ 2 = 1) ∧
    ∀ (k : PhysConst) (c : ℝ) (x : Fin 3 → ℝ) (A : AnalyzeArgs), A.ions ≤ 1 → A.minOff = true →
      ∃ lines, analyzeStatic k lib ⟨[⟨"a", 1, 2, .cover 1⟩], some c⟩ x A = (lines, none) := by
  obtain ⟨eig, h1, h2, h3⟩ := exists_eig_up
  obtain ⟨eigh, h4⟩ := exists_isEigh
  obtain ⟨argsort, h5⟩ := exists_isArgsort
  refine ⟨⟨fun _ _ _ _ => .error .valueError, fun p => .ok (p, 0), eigh, argsort, eig, fun _ _ => 0, fun _ _ _ _ _ => .error .valueError,
    fun _ => .error .valueError⟩, h1, h4, h5, h2, fun k c x A hi hm => ?_⟩
  refine c89_ends k _ h4 h5 _ c x A hi ?_ (Or.inl hm) ?_
  · intro e he
    simp only [List.mem_singleton] at he
    subst he
    trivial
  · intro M hM
    obtain ⟨all, hall, hlen, hperm, -⟩ := c73_sorted _ _ h5 _ _ _ _ _ hM
    rw [hperm.length_eq, List.filter_eq_self.2, hlen]
    · norm_num
    · intro q hq
      obtain ⟨mu, b, hb, rfl⟩ := sysMathieu_inv _ _ _ _ _ _ _ _ hall
      obtain ⟨q', hq', rfl⟩ := List.mem_map.1 hq
      obtain ⟨j, -, rfl⟩ := List.mem_map.1 (mem_sortModes hq')
      simp only [cover_flat, mul_zero, Complex.ofReal_zero] at hb
      obtain ⟨M0, hM0, hiff⟩ := c41_exactly (n := 3) eig 4 [0, 0] (by simp)
      have hb : mathieu eig 4 [(0 : Matrix (Fin 3) (Fin 3) ℂ), 0] = .ok (mu, b) := hb
      rw [hM0] at hb
      have e := congrArg Prod.fst (Except.ok.inj hb)
      simp only at e
      subst e
      have := h3 _ M0 ?_ j
      · simp only [decide_eq_true_eq]
        have e : ∀ z : ℂ, (z / 2).im = z.im / 2 := fun z => by simp
        rw [e]
        linarith
      · -- a mode at rest
        have hcomp : ∀ (d : Fin 2) (h : ℤ), |h| ≤ (4 : ℕ) → ∀ k : Fin 3,
            component 4 3 (fun i => if i = flatEquiv 4 3 (⟨4, by omega⟩, 0, 0) then (1 : ℂ) else 0) d h k =
              if d = 0 ∧ h = 0 ∧ k = 0 then 1 else 0 := by
          intro d h hh k
          obtain ⟨l, rfl⟩ : ∃ l : Fin (2 * 4 + 1), h = ((4 : ℕ) : ℤ) - l.val := by
            rw [abs_le] at hh
            exact ⟨⟨(4 - h).toNat, by omega⟩, by simp only; omega⟩
          rw [component_eq]
          simp only [(flatEquiv 4 3).injective.eq_iff, Prod.mk.injEq]
          have e : (l = ⟨4, by omega⟩ ∧ d = 0 ∧ k = 0) ↔ (d = 0 ∧ ((4 : ℕ) : ℤ) - l.val = 0 ∧ k = 0) := by
            rw [Fin.ext_iff]
            constructor
            · rintro ⟨a, b, c⟩; exact ⟨b, by simp only at a; omega, c⟩
            · rintro ⟨b, a, c⟩; exact ⟨by simp only; omega, b, c⟩
          simp only [e]
        refine ⟨0, fun i => if i = flatEquiv 4 3 (⟨4, by omega⟩, 0, 0) then 1 else 0, (hiff _ _).2 ⟨?_, ?_⟩, ?_, le_refl _⟩
        · intro h hh k
          have hs : Finset.Icc 1 ([(0 : Matrix (Fin 3) (Fin 3) ℂ), 0].length - 1) = {1} := rfl
          rw [hs, Finset.sum_singleton, List.getD_cons_zero, List.getD_cons_succ, List.getD_cons_zero, Matrix.zero_mulVec, Matrix.zero_mulVec]
          by_cases h0 : h = 0
          · subst h0
            simp
          · have := hcomp 0 h hh k
            rw [if_neg (fun hc => h0 hc.2.1)] at this
            simp only [Fin.val_zero] at this
            rw [this]
            simp
        · intro h hh k
          have e1 := hcomp 1 h hh k
          rw [if_neg (fun hc => absurd hc.1 (by decide))] at e1
          simp only [Fin.val_one] at e1
          rw [e1]
          by_cases h0 : h = 0
          · subst h0
            simp
          · have := hcomp 0 h hh k
            rw [if_neg (fun hc => h0 hc.2.1)] at this
            simp only [Fin.val_zero] at this
            rw [this, mul_zero]
        · intro hw
          have := congrFun hw (flatEquiv 4 3 (⟨4, by omega⟩, 0, 0))
          simp at this

end Analyze

/-- a report that comes to its end, for a single ion over a cover electrode: all its lines are right, and all are there. -/
example : ∃ (lib : AnalyzeLib) (lines : List Line) (F : Findings),
    IsEig lib.eig ∧ (∀ N M j, ∑ i, ‖(lib.eig N M).2 i j‖ ^ 2 = 1) ∧
    analyzeStatic ⟨1, 1, 1, 1⟩ lib ⟨[⟨"a", 1, 2, .cover 1⟩], some 1⟩ ![0, 0, 1] ⟨[], 1, 1, 1, 1, 1, true, 0, 0⟩ = (lines, none) ∧
    IsFound lib [⟨"a", 1, 2, .cover 1⟩] 1 ![0, 0, 1] ⟨[], 1, 1, 1, 1, 1, true, 0, 0⟩ F ∧
    ∀ line ∈ lines, LineOk ⟨1, 1, 1, 1⟩ ⟨[⟨"a", 1, 2, .cover 1⟩], some 1⟩ ![0, 0, 1] ⟨[], 1, 1, 1, 1, 1, true, 0, 0⟩ F line := by
  obtain ⟨lib, h1, h2, h3, h4, h5⟩ := cover_ends
  obtain ⟨lines, hl⟩ := h5 ⟨1, 1, 1, 1⟩ 1 ![0, 0, 1] ⟨[], 1, 1, 1, 1, 1, true, 0, 0⟩ (by simp) rfl
  obtain ⟨c, F, hc, hF, hL⟩ := c89_report_partial ⟨1, 1, 1, 1⟩ one_ne_zero one_ne_zero lib _ _ _ one_pos one_pos one_pos one_ne_zero lines hl
  obtain rfl := Option.some.inj hc
  exact ⟨lib, lines, F, h1, h4, hl, hF, hL⟩

end Electrode
