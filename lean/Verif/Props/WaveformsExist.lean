import Verif.Props.Waveforms
import Verif.Props.RingTrap

/-
C146: `solve` finds voltages whenever there are some.
-/
namespace Electrode
open Spec

namespace Wave

section
variable {M M' : Type*} [AddCommGroup M] [Module ℝ M] [AddCommGroup M'] [Module ℝ M']

theorem getD_map (f : M →ₗ[ℝ] M') (l : List M) (i : Nat) : (l.map f).getD i 0 = f (l.getD i 0) := by
  rw [← map_zero f, List.getD_map]

theorem diffStep_map (f : M →ₗ[ℝ] M') (d : Nat) (l : List M) : diffStep d (l.map f) = (diffStep d l).map f := by
  unfold diffStep
  rw [List.map_map, List.length_map]
  refine List.map_congr_left fun i _ => ?_
  rw [getD_map, getD_map, Function.comp_apply, map_sub]

theorem mirrorExt_map (f : M →ₗ[ℝ] M') (d : Nat) (l : List M) : mirrorExt d (l.map f) = (mirrorExt d l).map f := by
  unfold mirrorExt
  simp [List.map_append, List.map_take, List.map_drop, List.map_reverse, List.map_dropLast]

theorem diffLoop_map (f : M →ₗ[ℝ] M') (smooth : Bool) (d : Nat) (i k : Nat) (l : List M) :
    diffLoop smooth d i k (l.map f) = (diffLoop smooth d i k l).map f := by
  induction k generalizing i l with
  | zero => rfl
  | succ k ih =>
    unfold diffLoop
    rw [← ih]
    congr 1
    split_ifs
    · rw [mirrorExt_map, diffStep_map]
    · rw [diffStep_map]

theorem voltDeriv_map (f : M →ₗ[ℝ] M') (order : Nat) (smooth : Bool) (d : Nat) (l : List M) :
    voltDeriv order smooth d (l.map f) = (voltDeriv order smooth d l).map f := by
  unfold voltDeriv
  rw [diffLoop_map, List.map_map, List.map_map]
  refine List.map_congr_left fun v _ => ?_
  simp
end

/-- the differences are continuous functions of the table -/
theorem voltDeriv_cont (N n order : Nat) (smooth : Bool) (d : Nat) : ∃ L : List ((Fin N → Fin n → ℝ) → Fin n → ℝ), (∀ f ∈ L, Continuous f) ∧
    ∀ U : Fin N → Fin n → ℝ, voltDeriv order smooth d (List.ofFn U) = L.map fun f => f U := by
  let ev : (Fin N → Fin n → ℝ) → C(Fin N → Fin n → ℝ, Fin n → ℝ) →ₗ[ℝ] (Fin n → ℝ) := fun U =>
    { toFun := fun f => f U, map_add' := fun _ _ => rfl, map_smul' := fun _ _ => rfl }
  let base : List C(Fin N → Fin n → ℝ, Fin n → ℝ) := List.ofFn fun k => ⟨fun U => U k, continuous_apply k⟩
  refine ⟨(voltDeriv order smooth d base).map fun f U => f U, fun f hf => ?_, fun U => ?_⟩
  · obtain ⟨g, -, rfl⟩ := List.mem_map.1 hf
    exact g.continuous
  · have e : List.ofFn U = base.map (ev U) := by
      simp only [base, List.map_ofFn]
      rfl
    rw [e, voltDeriv_map, List.map_map]
    rfl

theorem sliceNorm_cont {n : Nat} (abs inf : Bool) : Continuous (sliceNorm (n := n) abs inf) := by
  unfold sliceNorm
  have hc : ∀ k : Fin n, Continuous fun v : Fin n → ℝ => if abs then |v k| else v k := fun k => by
    cases abs
    · simpa using continuous_apply k
    · simpa using (continuous_apply k).abs
  cases inf with
  | false =>
    simp only [Bool.false_eq_true, if_false]
    exact continuous_finset_sum _ fun k _ => hc k
  | true =>
    simp only [if_true]
    rcases Nat.eq_zero_or_pos n with rfl | hn
    · simp only [Real.iSup_of_isEmpty]
      exact continuous_const
    · haveI : Nonempty (Fin n) := ⟨⟨0, hn⟩⟩
      have e : (fun v : Fin n → ℝ => ⨆ k, (if abs = true then |v k| else v k)) = fun v => Finset.univ.sup' Finset.univ_nonempty fun k => if abs = true then |v k| else v k := by
        funext v
        rw [Finset.sup'_univ_eq_ciSup]
      rw [e]
      exact Continuous.finset_sup'_apply _ fun k _ => hc k

theorem kept_closed (N n : Nat) (c : VDC) : IsClosed {U : Fin N → Fin n → ℝ | VDC.kept c (List.ofFn U)} := by
  obtain ⟨L, h1, h2⟩ := voltDeriv_cont N n c.order c.smooth c.delta
  unfold VDC.kept
  simp only [h2, List.mem_map, forall_exists_index, and_imp, forall_apply_eq_imp_iff₂]
  simp only [Set.ofPred_forall]
  exact isClosed_iInter fun f => isClosed_iInter fun hf => isClosed_iInter fun m => isClosed_iInter fun _ =>
    isClosed_le ((sliceNorm_cont _ _).comp (h1 f hf)) continuous_const

theorem rough_cont (N n : Nat) (glob : List VDC) : Continuous fun U : Fin N → Fin n → ℝ => roughness glob (List.ofFn U) := by
  unfold roughness
  induction glob with
  | nil => simpa using continuous_const
  | cons c glob ih =>
    simp only [List.map_cons, List.sum_cons]
    refine Continuous.add ?_ ih
    obtain ⟨L, h1, h2⟩ := voltDeriv_cont N n c.order c.smooth c.delta
    simp only [h2]
    clear h2 ih
    induction L with
    | nil => simpa using continuous_const
    | cons f L ih =>
      simp only [List.map_cons, List.sum_cons]
      exact (continuous_const.mul ((sliceNorm_cont _ _).comp (h1 f (by simp)))).add (ih fun g hg => h1 g (by simp [hg]))

theorem pair_cont (c : List ℝ) (n : Nat) : Continuous fun v : Fin n → ℝ => pair c (List.ofFn v) := by
  unfold pair
  induction n generalizing c with
  | zero => simpa using continuous_const
  | succ n ih =>
    cases c with
    | nil => simpa using continuous_const
    | cons a c =>
      simp only [List.ofFn_succ, List.zipWith_cons_cons, List.sum_cons]
      refine (continuous_const.mul (continuous_apply 0)).add ((ih c).comp (f := fun (v : Fin (n + 1) → ℝ) (i : Fin n) => v i.succ) ?_)
      exact continuous_pi fun i => continuous_apply _

theorem met_closed (s : List Elec) (w : Want) (hf : w.fits s) : IsClosed {v : Fin s.length → ℝ | w.met s (List.ofFn v)} := by
  cases w with
  | deriv x l o a b =>
    obtain ⟨hl, ha⟩ := hf
    obtain ⟨ind, hi⟩ := Knob.individual_some s x l.length ha
    obtain ⟨p, co, -, -, -, -, h5⟩ := c48_derivative s x l hl ⟨none, a, b, o⟩ ind hi
    have e : ∀ v : Fin s.length → ℝ, electricalAt (withDc s (List.ofFn v)) .dc l x = pair co (List.ofFn v) := fun v => (h5 _ (by simp)).symm
    unfold Want.met
    simp only [e, Set.ofPred_and, Set.ofPred_forall]
    have hc := pair_cont co s.length
    exact (isClosed_iInter fun m => isClosed_iInter fun _ => isClosed_eq hc continuous_const).inter
      ((isClosed_iInter fun m => isClosed_iInter fun _ => isClosed_le continuous_const hc).inter
        (isClosed_iInter fun m => isClosed_iInter fun _ => isClosed_le hc continuous_const))
  | turned x r l o a b =>
    obtain ⟨hr, hl, ha⟩ := hf
    obtain ⟨ind, hi⟩ := Knob.individual_some s x l.length ha
    obtain ⟨p, co, -, -, -, -, h5⟩ := c48_rotated s x l hl r hr ⟨none, a, b, o⟩ ind hi
    have e : ∀ v : Fin s.length → ℝ, contraction (fun ks => electricalAt (withDc s (List.ofFn v)) .dc ks x) r l = pair co (List.ofFn v) :=
      fun v => (h5 _ (by simp)).symm
    unfold Want.met
    simp only [e, Set.ofPred_and, Set.ofPred_forall]
    have hc := pair_cont co s.length
    exact (isClosed_iInter fun m => isClosed_iInter fun _ => isClosed_eq hc continuous_const).inter
      ((isClosed_iInter fun m => isClosed_iInter fun _ => isClosed_le continuous_const hc).inter
        (isClosed_iInter fun m => isClosed_iInter fun _ => isClosed_le hc continuous_const))
  | sum parts o a b =>
    obtain ⟨hne, hq⟩ := hf
    obtain ⟨comps, cs, -, h2, h3, h4, h5, h6, h7⟩ := parts_ok s parts hq
    obtain ⟨p, hp⟩ := List.exists_mem_of_ne_nil comps (by rintro rfl; exact hne (List.length_eq_zero_iff.1 h2.symm))
    obtain ⟨co, -, -, k3⟩ := c49_weighted_sum s comps ⟨none, a, b, o⟩ cs h3 h4 h5 ⟨p, hp, h6 p hp⟩
    have e : ∀ v : Fin s.length → ℝ, weightedSum (withDc s (List.ofFn v)) parts = pair co (List.ofFn v) := fun v => by rw [k3, h7 _ (by simp)]
    unfold Want.met
    simp only [e, Set.ofPred_and, Set.ofPred_forall]
    have hc := pair_cont co s.length
    exact (isClosed_iInter fun m => isClosed_iInter fun _ => isClosed_eq hc continuous_const).inter
      ((isClosed_iInter fun m => isClosed_iInter fun _ => isClosed_le continuous_const hc).inter
        (isClosed_iInter fun m => isClosed_iInter fun _ => isClosed_le hc continuous_const))
  | volts a b i =>
    unfold Want.met
    have e : ∀ (v : Fin s.length → ℝ) (j : Nat) (hj : j < s.length), (List.ofFn v).getD j 0 = v ⟨j, hj⟩ := fun v j hj => by
      rw [List.getD_eq_getElem _ _ (by simpa using hj), List.getElem_ofFn]
    simp only [Set.ofPred_forall]
    refine isClosed_iInter fun j => isClosed_iInter fun hj => isClosed_iInter fun _ => ?_
    simp only [e _ j hj, Set.ofPred_and, Set.ofPred_forall]
    exact (isClosed_iInter fun m => isClosed_iInter fun _ => isClosed_le continuous_const (continuous_apply _)).inter
      (isClosed_iInter fun m => isClosed_iInter fun _ => isClosed_le (continuous_apply _) continuous_const)

theorem row_ofFn {N n : Nat} (U : Fin N → Fin n → ℝ) (k : Nat) (hk : k < N) : rowOf (List.ofFn U) k = List.ofFn (U ⟨k, hk⟩) := by
  unfold rowOf
  rw [List.getD_eq_getElem _ _ (by simpa using hk), List.getElem_ofFn]

end Wave
open Wave

/-- **C146.** If all voltages are bounded at each point of the path and there is a table that does all that is wanted, `solve` returns one. -/
theorem c146_succeeds (s : List Elec) (solver : (Volts s.length → ℝ) → List (Volts s.length → Prop) → Nat → Option (Volts s.length)) (hfind : FindsOptimum solver)
    (wants : List (List Want)) (loc : List (List Ctr)) (h : Demands wants loc) (hf : ∀ ws ∈ wants, ∀ w ∈ ws, w.fits s)
    (glob : List VDC) (hg : ∀ c ∈ glob, VDC.plain c) (hbd : ∀ ws ∈ wants, ∃ a b, Want.volts (some a) (some b) none ∈ ws)
    (u0 : Volts s.length) (hl0 : u0.length = wants.length) (hm0 : AllMet s wants u0) (hk0 : ∀ c ∈ glob, VDC.kept c u0) :
    ∃ u c, solveSets s solver loc glob = .ok (u, c) := by
  obtain ⟨gens, h1, h2, h3, h4⟩ := solve_split s solver wants loc h hf glob hg
  have hobj : ∀ u : Volts s.length, u.length = wants.length → (solveProblem gens (glob.map fun c => c.gen wants.length)).1 u = roughness glob u := fun u hu => by
    rw [c40_objective_partial gens _ (fun g hgm => h3 g (List.dropLast_subset _ hgm)) u, total_rough gens h3 glob hg _ u hu]
  set N := wants.length with hN
  let K : Set (Fin N → Fin s.length → ℝ) := {U | AllMet s wants (List.ofFn U)} ∩ {U | ∀ c ∈ glob, VDC.kept c (List.ofFn U)}
  have hK1 : IsClosed K := by
    refine IsClosed.inter ?_ ?_
    · unfold AllMet
      simp only [Set.ofPred_forall]
      refine isClosed_iInter fun k => isClosed_iInter fun ws => isClosed_iInter fun hk => isClosed_iInter fun w => isClosed_iInter fun hw => ?_
      have hkN : k < N := by
        by_contra hc
        rw [List.getElem?_eq_none (by omega)] at hk
        cases hk
      simp only [row_ofFn _ k hkN]
      exact IsClosed.preimage (f := fun U : Fin N → Fin s.length → ℝ => U ⟨k, hkN⟩) (continuous_apply (⟨k, hkN⟩ : Fin N))
        (met_closed s w (hf ws (List.mem_of_getElem? hk) w hw))
    · simp only [Set.ofPred_forall]
      exact isClosed_iInter fun c => isClosed_iInter fun _ => kept_closed N s.length c
  have hb : ∀ k : Fin N, ∃ a b : ℝ, Want.volts (some a) (some b) none ∈ wants[k] := fun k => hbd _ (List.getElem_mem _)
  choose a b hab using hb
  have hK2 : K ⊆ Set.pi Set.univ fun k => Set.pi Set.univ fun _ => Set.Icc (a k) (b k) := fun U hU k _ j _ => by
    have := hU.1 k.val wants[k] (by simp) _ (hab k) j.val j.isLt trivial
    rw [row_ofFn U k.val k.isLt, List.getD_eq_getElem _ _ (by simp), List.getElem_ofFn] at this
    exact ⟨this.1 _ rfl, this.2 _ rfl⟩
  have hK : IsCompact K := (isCompact_univ_pi fun k => isCompact_univ_pi fun _ => isCompact_Icc).of_isClosed_subset hK1 hK2
  have hof : ∀ u : Volts s.length, u.length = N → ∃ U : Fin N → Fin s.length → ℝ, List.ofFn U = u := fun u hu => by
    refine ⟨fun k => u.getD k.val 0, List.ext_getElem (by simp [hu]) fun i h1 h2 => ?_⟩
    rw [List.getElem_ofFn, List.getD_eq_getElem _ _ h2]
  obtain ⟨U0, hU0⟩ := hof u0 hl0
  obtain ⟨U, hU, hmin⟩ := hK.exists_isMinOn ⟨U0, by show AllMet _ _ _; rw [hU0]; exact hm0, by intro c hc; rw [hU0]; exact hk0 c hc⟩
    (rough_cont N s.length glob).continuousOn
  have hlU : (List.ofFn U).length = N := by simp
  obtain ⟨u, hu⟩ := hfind (solveProblem gens (glob.map fun c => c.gen N)).1 (solveProblem gens (glob.map fun c => c.gen N)).2 N
    ⟨List.ofFn U, hlU, (c40_constraints gens _ _).2 ((h4 _ hlU).2 hU), fun w hw hcw => by
      obtain ⟨W, rfl⟩ := hof w hw
      rw [hobj _ hlU, hobj _ hw]
      exact hmin ((h4 _ hw).1 ((c40_constraints gens _ _).1 hcw))⟩
  refine ⟨u, (solveProblem gens (glob.map fun c => c.gen N)).1 u, ?_⟩
  rw [h2]
  unfold solve
  simp only [h1, hu]

/-! ### a case -/

theorem exists_findsOptimum (n : Nat) : ∃ solver : (Volts n → ℝ) → List (Volts n → Prop) → Nat → Option (Volts n), Minimises solver ∧ FindsOptimum solver := by
  classical
  let Best : (Volts n → ℝ) → List (Volts n → Prop) → Nat → Volts n → Prop := fun obj ctrs rows u =>
    u.length = rows ∧ (∀ c ∈ ctrs, c u) ∧ ∀ w : Volts n, w.length = rows → (∀ c ∈ ctrs, c w) → obj u ≤ obj w
  refine ⟨fun obj ctrs rows => if h : ∃ u, Best obj ctrs rows u then some h.choose else none, fun obj ctrs rows u h => ?_, fun obj ctrs rows h => ⟨h.choose, dif_pos h⟩⟩
  dsimp only at h
  by_cases h' : ∃ u, Best obj ctrs rows u
  · rw [dif_pos h'] at h
    obtain rfl := Option.some.inj h
    exact h'.choose_spec
  · rw [dif_neg h'] at h
    cases h

/-- The hypotheses of all theorems above are met: two rows of voltages for the ring trap, no voltages in the first row, voltages of at least `δ / 2` in the second
row, and steps of at most `δ`. -/
example : ∃ solver, Minimises solver ∧ FindsOptimum solver ∧ ∃ (δ lam : ℝ) (loc : List (List Ctr)) (u : Volts Ring.trap.length) (c : ℝ), 0 < δ ∧ 0 < lam ∧
    solveSets Ring.trap solver loc [⟨1, 1, some δ, none, false, 1, .inf, true⟩] = .ok (u, c) ∧ u.length = 2 ∧ (∀ j, δ / 2 ≤ u.getD 1 0 j) ∧
    ∀ σ ∈ Set.Icc (0 : ℝ) 1, ∃ x1, slopeAt ⟨withDc Ring.trap (List.zipWith (fun p q => (1 - σ) * p + σ * q) (rowOf u 0) (rowOf u 1)), some 1⟩ x1 = 0 ∧
      vlen (x1 - ![0, 0, 7]) ≤ 2 * (σ * δ) / (6 * lam) := by
  obtain ⟨solver, hs, hfind⟩ := exists_findsOptimum Ring.trap.length
  obtain ⟨R, lam, hR, hl, hR1, -, hst, hg⟩ := Ring.trap_well
  have hz : ∀ x ∈ rball ![0, 0, 7] R, 6 ≤ x 2 := fun x hx => by
    have h2 : vlen (x - ![0, 0, 7]) ≤ 1 := (show vlen _ ≤ R from hx).trans hR1
    have h4 := (abs_le.1 ((Ring.abs_le_vlen (x - ![0, 0, 7]) 2).trans h2)).1
    simp at h4
    linarith
  set δ := lam * R with hδ
  have hδ0 : 0 < δ := mul_pos hl hR
  have e7 : toV3 ![0, 0, 7] = ⟨0, 0, 7⟩ := by simp [toV3]
  have hoff : offSystem Ring.trap (toV3 ![0, 0, 7]) := by rw [e7]; exact Ring.trap_off7
  let d : Fin 3 → Want := fun a => .deriv (toV3 ![0, 0, 7]) [a] (some (-pseudoAt ⟨Ring.trap, some 1⟩ [a] (toV3 ![0, 0, 7]))) none none
  let wants : List (List Want) := [[d 0, d 1, d 2, .volts (some 0) (some 0) none], [.volts (some (δ / 2)) (some δ) none]]
  have hd : ∀ a, ∃ o, (d a).ctr = .ok o := fun a => by
    obtain ⟨ind, hi⟩ := Knob.individual_some Ring.trap (toV3 ![0, 0, 7]) 1 (Knob.off_avail hoff _)
    obtain ⟨p, co, h1, -⟩ := c48_derivative Ring.trap (toV3 ![0, 0, 7]) [a] (by simp) ⟨none, none, none, some (-pseudoAt ⟨Ring.trap, some 1⟩ [a] (toV3 ![0, 0, 7]))⟩ ind hi
    exact ⟨.single p, by simp only [d, Want.ctr, h1, Except.map]⟩
  choose o ho using hd
  let loc : List (List Ctr) := [[o 0, o 1, o 2, .range (some 0) (some 0) none], [.range (some (δ / 2)) (some δ) none]]
  have hdem : Demands wants loc := .cons (.cons (ho 0) (.cons (ho 1) (.cons (ho 2) (.cons rfl .nil)))) (.cons (.cons rfl .nil) .nil)
  have hfd : ∀ a, (d a).fits Ring.trap := fun a => ⟨by simp, Knob.off_avail hoff _⟩
  have hfits : ∀ ws ∈ wants, ∀ w ∈ ws, w.fits Ring.trap := by
    intro ws hws w hw
    simp only [wants, List.mem_cons, List.not_mem_nil, or_false] at hws
    rcases hws with rfl | rfl
    · simp only [List.mem_cons, List.not_mem_nil, or_false] at hw
      rcases hw with rfl | rfl | rfl | rfl
      · exact hfd 0
      · exact hfd 1
      · exact hfd 2
      · intro j hj; cases hj
    · simp only [List.mem_cons, List.not_mem_nil, or_false] at hw
      subst hw
      intro j hj; cases hj
  let b : VDC := ⟨1, 1, some δ, none, false, 1, .inf, true⟩
  have hplain : ∀ c ∈ [b], VDC.plain c := by
    intro c hc
    rw [List.mem_singleton] at hc
    subst hc
    exact ⟨by simp [b], rfl, by norm_num [b]⟩
  have hrow : ∀ v : List ℝ, v = [0, 0] → withDc Ring.trap v = Ring.trap := by
    rintro _ rfl
    rfl
  have hmd : ∀ a, (d a).met Ring.trap [0, 0] := fun a => by
    refine ⟨fun m hm => ?_, fun m hm => ?_, fun m hm => ?_⟩
    on_goal 2 => cases hm
    on_goal 2 => cases hm
    rw [hrow _ rfl, ← Option.some.inj hm, electricalAt_eq _ .dc [a] (by simp) _ (avail_of_off hoff _ _),
      pseudoAt_eq _ 1 [a] (by simp) _ fun i _ _ => avail_of_off hoff _ _]
    have := congrFun hg a
    simp only [slopeAt, Pi.zero_apply] at this
    rw [total_split _ 1 [a] (by simp) _ fun _ _ => avail_of_off hoff _ _] at this
    linarith
  let u0 : Volts Ring.trap.length := [fun _ => 0, fun _ => δ]
  have hmet0 : AllMet Ring.trap wants u0 := by
    intro k ws hk w hw
    match k, hk with
    | 0, hk =>
      simp only [wants, List.getElem?_cons_zero, Option.some.injEq] at hk
      subst hk
      have e : rowOf u0 0 = [0, 0] := rfl
      rw [e]
      simp only [List.mem_cons, List.not_mem_nil, or_false] at hw
      rcases hw with rfl | rfl | rfl | rfl
      · exact hmd 0
      · exact hmd 1
      · exact hmd 2
      · intro j hj _
        have hj' : j = 0 ∨ j = 1 := by have : j < 2 := hj; omega
        rcases hj' with rfl | rfl <;> simp
    | 1, hk =>
      simp only [wants, List.getElem?_cons_zero, List.getElem?_cons_succ, Option.some.injEq] at hk
      subst hk
      have e : rowOf u0 1 = [δ, δ] := rfl
      rw [e]
      simp only [List.mem_cons, List.not_mem_nil, or_false] at hw
      subst hw
      intro j hj _
      have hj' : j = 0 ∨ j = 1 := by have : j < 2 := hj; omega
      rcases hj' with rfl | rfl <;> simp <;> linarith
  have hkept0 : ∀ c ∈ [b], VDC.kept c u0 := by
    intro c hc
    rw [List.mem_singleton] at hc
    subst hc
    intro v hv m hm
    simp only [b, Option.some.injEq] at hm
    subst hm
    have : v = fun _ => δ := by
      have h1 : v ∈ voltDeriv 1 false 1 u0 := hv
      simp only [voltDeriv, diffLoop, diffStep, u0] at h1
      simp at h1
      rw [h1]
      funext j
      simp
    subst this
    have : Nonempty (Fin Ring.trap.length) := ⟨⟨0, by simp [Ring.trap]⟩⟩
    simp [sliceNorm, b, abs_of_pos hδ0]
  obtain ⟨u, c, hu⟩ := c146_succeeds Ring.trap solver hfind wants loc hdem hfits [b] hplain (by
    intro ws hws
    simp only [wants, List.mem_cons, List.not_mem_nil, or_false] at hws
    rcases hws with rfl | rfl
    · exact ⟨0, 0, by simp⟩
    · exact ⟨δ / 2, δ, by simp⟩) u0 rfl hmet0 hkept0
  obtain ⟨m1, m2, -⟩ := c146_met Ring.trap solver hs wants loc hdem hfits [b] hplain u c hu
  have hrow0 : rowOf u 0 = [0, 0] := by
    have h1 := m2 0 _ rfl (.volts (some 0) (some 0) none) (by simp)
    have h2 := h1 0 (by simp [Ring.trap]) trivial
    have h3 := h1 1 (by simp [Ring.trap]) trivial
    rw [row_getD u 0 0 (by simp [Ring.trap])] at h2
    rw [row_getD u 0 1 (by simp [Ring.trap])] at h3
    have e0 := le_antisymm (h2.2 0 rfl) (h2.1 0 rfl)
    have e1 := le_antisymm (h3.2 0 rfl) (h3.1 0 rfl)
    show [u.getD 0 0 ⟨0, _⟩, u.getD 0 0 ⟨1, _⟩] = _
    rw [e0, e1]
  have heq := c146_equilibrium Ring.trap solver hs wants loc hdem hfits [b] hplain u c hu 1 0 _ rfl ![0, 0, 7] hoff (by
    intro a
    fin_cases a <;> simp [d])
  refine ⟨solver, hs, hfind, δ, lam, loc, u, c, hδ0, hl, hu, m1, fun j => ?_, fun σ hσ => ?_⟩
  · have h1 := m2 1 _ rfl (.volts (some (δ / 2)) (some δ) none) (by simp) j.val j.isLt trivial
    rw [row_getD u 1 j.val j.isLt] at h1
    exact h1.1 _ rfl
  · obtain ⟨⟨x1, k1, k2, -⟩, k3⟩ := c146_between Ring.trap solver hs wants loc hdem hfits [b] hplain u c hu δ hδ0.le b (by simp) ⟨rfl, rfl, rfl, rfl⟩ 50 Ring.trap_is
      Ring.trap_separate 1 0 (by simp [wants]) ![0, 0, 7] heq R hR 6 (by norm_num) hz lam hl (by rw [hrow _ hrow0]; exact hst) (by rw [← hδ]; linarith) σ hσ.1 hσ.2 _ rfl
    exact ⟨x1, k2, k3 x1 k1 k2⟩

/-! ### what goes wrong -/

/-- **C40** does not hold for `PotentialObjective(value=...)`: if the last of the local constraints has a value to be optimised, `solve` raises `TypeError`,
whatever the solver is: the terms of the objective are arrays of coefficients instead of functions of the voltages. -/
theorem c40_value_counterexample (s : List Elec) (solver : (Volts s.length → ℝ) → List (Volts s.length → Prop) → Nat → Option (Volts s.length))
    (wants : List (List Want)) (loc : List (List Ctr)) (h : Demands wants loc) (hf : ∀ ws ∈ wants, ∀ w ∈ ws, w.fits s)
    (x : V3) (l : Idx) (hl : l.length ≤ 5) (ha : ∀ e ∈ s, e.shape.Avail l.length) (value : ℝ) (o : SVC)
    (ho : potentialObjective x (l.map axisLetter) none ⟨some value, none, none, none⟩ = .ok o) (glob : List VDC) (hg : ∀ c ∈ glob, VDC.plain c) :
    solveSets s solver (loc ++ [[.single o]]) glob = .error .typeError := by
  obtain ⟨gens, h1, -⟩ := sets_ok s wants loc h hf
  obtain ⟨ind, hi⟩ := Knob.individual_some s x l.length ha
  obtain ⟨p, co, k1, k2, k3, -, -⟩ := c48_derivative s x l hl ⟨some value, none, none, none⟩ ind hi
  rw [ho] at k1
  obtain rfl := Except.ok.inj k1
  have hlast : ∀ arr, localSet s [.single o] arr = .ok (true, [⟨[], []⟩]) := fun arr => by
    obtain ⟨ctrs, c1, c2⟩ := c47_constraints s o co k3
    have e1 : (Ctr.single o).objective s = .ok [(some co, value)] := (c47_objective s o _ k3).2 value (by rw [k2])
    have e2 : (Ctr.single o).constraints s = .ok [] := by
      simp [Ctr.constraints, SVC.constraints, k2]
    simp [localSet, e1, e2, hasArray]
  have happ : ∀ (loc : List (List Ctr)) (arr arr' : Bool) gens, localSets s loc arr = .ok (arr', gens) →
      localSets s (loc ++ [[.single o]]) arr = .ok (true, gens ++ [[⟨[], []⟩]]) := by
    intro loc
    induction loc with
    | nil =>
      intro arr arr' gens hh
      simp only [localSets, Except.ok.injEq, Prod.mk.injEq] at hh
      simp [localSets, hlast, ← hh.2]
    | cons ci loc ih =>
      intro arr arr' gens hh
      simp only [localSets] at hh
      cases hc : localSet s ci arr with
      | error e => simp [hc] at hh
      | ok r =>
        obtain ⟨a1, gs⟩ := r
        simp only [hc] at hh
        cases hd : localSets s loc a1 with
        | error e => simp [hd] at hh
        | ok r =>
          obtain ⟨a2, gss⟩ := r
          simp only [hd, Except.ok.injEq, Prod.mk.injEq] at hh
          rw [List.cons_append, localSets, hc]
          simp only [ih a1 a2 gss hd, ← hh.2, List.cons_append]
  unfold solveSets
  rw [happ loc false false gens h1, pySeq_map_ok glob _ (fun _ => ()) fun c hc => accepted_ok c (hg c hc) _]
  simp

/-- **C50**: a lower bound with absolute values (the default) cannot be used: `solve` raises `TypeError` if there is any difference to be bounded. -/
theorem c50_lower_raises (s : List Elec) (solver : (Volts s.length → ℝ) → List (Volts s.length → Prop) → Nat → Option (Volts s.length))
    (wants : List (List Want)) (loc : List (List Ctr)) (h : Demands wants loc) (hf : ∀ ws ∈ wants, ∀ w ∈ ws, w.fits s)
    (c : VDC) (hc : c.norm ≠ .other ∧ c.abs = true ∧ c.smooth = false) (m : ℝ) (hm : c.min = some m) (hlen : c.order * c.delta < loc.length) :
    solveSets s solver loc [c] = .error .typeError := by
  obtain ⟨gens, h1, -⟩ := sets_ok s wants loc h hf
  have e : c.accepted loc.length = .error .typeError := by
    obtain ⟨hn, h2, h3⟩ := hc
    unfold VDC.accepted
    have h0 : (voltDeriv c.order c.smooth c.delta (List.replicate loc.length (0 : ℝ))).length ≠ 0 := by
      rw [h3, (c50_difference c.order c.delta _).1, List.length_replicate]
      omega
    rw [if_neg h0]
    revert hn
    cases c.norm <;> simp [hm, h2]
  unfold solveSets
  rw [h1]
  simp [pySeq, e]

example (solver : (Volts Ring.trap.length → ℝ) → List (Volts Ring.trap.length → Prop) → Nat → Option (Volts Ring.trap.length)) :
    solveSets Ring.trap solver [[.range (some 0) (some 1) none], [.range (some 0) (some 1) none]] [⟨1, 0, none, some 0, false, 1, .one, true⟩] = .error .typeError :=
  c50_lower_raises Ring.trap solver [[.volts (some 0) (some 1) none], [.volts (some 0) (some 1) none]] _ (.cons (.cons rfl .nil) (.cons (.cons rfl .nil) .nil))
    (by simp [Want.fits]) _ ⟨by simp, rfl, rfl⟩ 0 rfl (by simp)

/-- the potential above the ring trap as the only objective -/
example (solver : (Volts Ring.trap.length → ℝ) → List (Volts Ring.trap.length → Prop) → Nat → Option (Volts Ring.trap.length)) :
    ∃ o, potentialObjective ⟨0, 0, 7⟩ [] none ⟨some 1, none, none, none⟩ = .ok o ∧
      solveSets Ring.trap solver [[.range (some (-1)) (some 1) none], [.single o]] [] = .error .typeError := by
  have ha : ∀ e ∈ Ring.trap, e.shape.Avail 0 := Knob.off_avail Ring.trap_off7 0
  obtain ⟨ind, hi⟩ := Knob.individual_some Ring.trap ⟨0, 0, 7⟩ 0 ha
  obtain ⟨o, -, h1, -⟩ := c48_derivative Ring.trap ⟨0, 0, 7⟩ [] (by simp) ⟨some 1, none, none, none⟩ ind hi
  refine ⟨o, h1, ?_⟩
  exact c40_value_counterexample Ring.trap solver [[.volts (some (-1)) (some 1) none]] [[.range (some (-1)) (some 1) none]] (.cons (.cons rfl .nil) .nil)
    (by simp [Want.fits]) ⟨0, 0, 7⟩ [] (by simp) ha 1 o h1 [] (by simp)

end Electrode
