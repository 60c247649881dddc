import Verif.Spec.System
import Verif.Lemmas.System
import Verif.Lemmas.Cyclic
import Mathlib.Data.List.GetD

/-
C23: a mesh electrode made from a system of polygon electrodes.
-/
namespace Electrode
open Spec

section
variable (G : V2 → V2 → ℝ)

/-- sum over the edges of a mesh -/
noncomputable def MeshAcc.total (acc : MeshAcc) (v : Nat → ℝ) : ℝ :=
  ((acc.edges.zip acc.polygons).map fun e => v e.2 * G (acc.points.getD e.1.1 ⟨0, 0⟩) (acc.points.getD e.1.2 ⟨0, 0⟩)).sum

/-- edges refer to existing points, one polygon number for each -/
def MeshAcc.Ok (acc : MeshAcc) : Prop :=
  acc.edges.length = acc.polygons.length ∧ ∀ e ∈ acc.edges, e.1 < acc.points.length ∧ e.2 < acc.points.length

theorem zip_rollRight_mem {α : Type*} (l : List α) (e : α × α) (h : e ∈ (rollRight l).zip l) : e.1 ∈ l ∧ e.2 ∈ l := by
  have h2 := List.of_mem_zip (a := e.1) (b := e.2) h
  refine ⟨?_, h2.2⟩
  have := h2.1
  unfold rollRight at this
  rwa [List.mem_rotate] at this

theorem MeshAcc.addPath_ok (acc : MeshAcc) (h : acc.Ok) (path : List V2) : (acc.addPath path).Ok := by
  unfold MeshAcc.addPath MeshAcc.Ok
  refine ⟨?_, ?_⟩
  · simp [rollRight, h.1]
  · intro e he
    simp only [List.mem_append, List.length_append] at he ⊢
    rcases he with he | he
    · have := h.2 e he; omega
    · have := zip_rollRight_mem _ _ he
      simp only [List.mem_map, List.mem_range] at this
      obtain ⟨⟨a, ha, h1⟩, ⟨b, hb, h2⟩⟩ := this
      omega

/-- pairs (previous, this) around the closed list -/
theorem sum_zipWith_rollRight {α : Type*} (f : α → α → ℝ) (l : List α) :
    (List.zipWith f (rollRight l) l).sum = cycSum f l := by
  have h : rollLeft (rollRight l) = l := by
    unfold rollLeft rollRight
    rw [List.rotate_rotate]
    cases l with
    | nil => simp
    | cons a t =>
      have : (a :: t).length - 1 + 1 = (a :: t).length := by simp
      rw [this, List.rotate_length]
  have := sum_zipWith_roll f (rollRight l)
  rw [h] at this
  rw [this]
  unfold rollRight
  exact cycSum_rotate f l _

theorem MeshAcc.addPath_total (acc : MeshAcc) (h : acc.Ok) (path : List V2) (v : Nat → ℝ) :
    (acc.addPath path).total G v = acc.total G v + v acc.potentials.length * cycSum G path := by
  unfold MeshAcc.total
  simp only [MeshAcc.addPath]
  rw [List.zip_append h.1, List.map_append, List.sum_append]
  congr 1
  · congr 1
    apply List.map_congr_left
    intro e he
    have := h.2 e.1 (List.of_mem_zip (a := e.1) (b := e.2) he).1
    rw [List.getD_append _ _ _ _ this.1, List.getD_append _ _ _ _ this.2]
  · simp only [List.length_map, List.length_range]
    have hz : ∀ (l : List (Nat × Nat)) (n k : Nat), l.length ≤ k → l.zip (List.replicate k n) = l.map fun e => (e, n) := by
      intro l n k hl
      apply List.ext_getElem
      · simp [hl]
      · intro i h1 h2; simp
    rw [hz _ _ _ (by simp [rollRight])]
    rw [List.map_map]
    simp only [Function.comp_def]
    rw [List.sum_map_mul_left]
    congr 1
    have e1 : (rollRight (List.map (fun x => acc.points.length + x) (List.range path.length))).zip
        (List.map (fun x => acc.points.length + x) (List.range path.length))
        = ((rollRight (List.range path.length)).zip (List.range path.length)).map
          fun e => (acc.points.length + e.1, acc.points.length + e.2) := by
      unfold rollRight
      rw [List.length_map, ← List.map_rotate, List.zip_map]
      rfl
    rw [e1, List.map_map]
    simp only [Function.comp_def]
    have e2 : (((rollRight (List.range path.length)).zip (List.range path.length)).map fun e : Nat × Nat =>
        G ((acc.points ++ path).getD (acc.points.length + e.1) ⟨0, 0⟩) ((acc.points ++ path).getD (acc.points.length + e.2) ⟨0, 0⟩))
        = List.zipWith (fun a b => G (path.getD a ⟨0, 0⟩) (path.getD b ⟨0, 0⟩)) (rollRight (List.range path.length))
          (List.range path.length) := by
      rw [List.zip, List.map_zipWith]
      apply zipWith_congr
      intro a b
      rw [List.getD_append_right _ _ _ _ (by omega), List.getD_append_right _ _ _ _ (by omega)]
      simp
    rw [e2, sum_zipWith_rollRight, ← cycSum_map G fun j => path.getD j ⟨0, 0⟩]
    congr 1
    apply List.ext_getElem
    · simp
    · intro i h1 h2
      simp [h2]

theorem MeshAcc.addPaths (acc : MeshAcc) (h : acc.Ok) (paths : List (List V2)) :
    (paths.foldl MeshAcc.addPath acc).Ok ∧ (paths.foldl MeshAcc.addPath acc).potentials = acc.potentials ∧
    ∀ v : Nat → ℝ, (paths.foldl MeshAcc.addPath acc).total G v
      = acc.total G v + v acc.potentials.length * (paths.map (cycSum G)).sum := by
  induction paths generalizing acc with
  | nil => simp [h]
  | cons path paths ih =>
    obtain ⟨h1, h2, h3⟩ := ih (acc.addPath path) (acc.addPath_ok h path)
    refine ⟨h1, ?_, fun v => ?_⟩
    · rw [List.foldl_cons, h2]; rfl
    · rw [List.foldl_cons, h3, addPath_total G acc h]
      have : (acc.addPath path).potentials = acc.potentials := rfl
      rw [this, List.map_cons, List.sum_cons]
      ring
end

/-- the closed boundaries of an electrode -/
noncomputable def pathsSum (G : V2 → V2 → ℝ) (e : Elec) : ℝ :=
  match e.shape with
  | .polygons paths _ _ => (paths.map (cycSum G)).sum
  | _ => 0

theorem mesh_fold (G : V2 → V2 → ℝ) (s : List Elec) (acc acc' : MeshAcc) (h : acc.Ok)
    (hf : s.foldlM MeshAcc.addElec acc = .ok acc') :
    acc'.potentials = acc.potentials ++ s.map (·.dc) ∧ (∀ e ∈ s, ∃ paths ch cn, e.shape = .polygons paths ch cn) ∧
    ∀ v : Nat → ℝ, acc'.total G v = acc.total G v +
      (s.zipIdx.map fun e => v (acc.potentials.length + e.2) * pathsSum G e.1).sum := by
  induction s generalizing acc with
  | nil =>
    simp only [List.foldlM_nil] at hf
    injection hf with hf
    subst hf
    simp
  | cons e s ih =>
    rw [List.foldlM_cons] at hf
    cases hs : e.shape with
    | polygons paths ch cn =>
      have hadd : acc.addElec e = .ok { paths.foldl MeshAcc.addPath acc with
          potentials := (paths.foldl MeshAcc.addPath acc).potentials ++ [e.dc] } := by
        unfold MeshAcc.addElec; rw [hs]
      rw [hadd] at hf
      change s.foldlM MeshAcc.addElec _ = _ at hf
      obtain ⟨p1, p2, p3⟩ := MeshAcc.addPaths G acc h paths
      obtain ⟨q1, q2, q3⟩ := ih { paths.foldl MeshAcc.addPath acc with
          potentials := (paths.foldl MeshAcc.addPath acc).potentials ++ [e.dc] } p1 hf
      refine ⟨?_, ?_, ?_⟩
      · rw [q1, p2]; simp
      · intro e' he'
        rcases List.mem_cons.1 he' with rfl | he'
        · exact ⟨paths, ch, cn, hs⟩
        · exact q2 e' he'
      · intro v
        rw [q3 v]
        have t1 : MeshAcc.total G { paths.foldl MeshAcc.addPath acc with
          potentials := (paths.foldl MeshAcc.addPath acc).potentials ++ [e.dc] } v
            = (paths.foldl MeshAcc.addPath acc).total G v := rfl
        rw [t1, p3 v]
        simp only [List.zipIdx_cons, List.map_cons, List.sum_cons, p2, List.length_append, List.length_singleton]
        have : pathsSum G e = (paths.map (cycSum G)).sum := by unfold pathsSum; rw [hs]
        rw [this, Nat.zero_add, List.zipIdx_succ, List.map_map]
        simp only [Function.comp_def, Nat.add_zero]
        have : ∀ e' : Elec × Nat, acc.potentials.length + 1 + e'.2 = acc.potentials.length + (e'.2 + 1) := by
          intro e'; omega
        simp only [this]
        ring
    | cover _ => simp only [MeshAcc.addElec, hs] at hf; cases hf
    | points _ _ _ _ => simp only [MeshAcc.addElec, hs] at hf; cases hf
    | mesh _ _ _ _ _ _ => simp only [MeshAcc.addElec, hs] at hf; cases hf
    | grid _ _ _ => simp only [MeshAcc.addElec, hs] at hf; cases hf

theorem images_zero (h : ℝ) (p : V3) : images 0 h p = [p] := by
  simp [images, coverRange, V3.lift]

/-- C23: a mesh electrode made from a system of polygon electrodes without cover expansion
(`cover_nmax=0`, the default) has, at its own voltage, at all positions and orders the dc potential of
the system. -/
theorem c23_mesh_equals_system (s : List Elec) (m : Elec) (hm : fromPolygonSystem s = .ok m)
    (hc : ∀ e ∈ s, ∃ paths h, e.shape = .polygons paths h 0) (x : List V3) (d : Nat) :
    m.potential x d m.dc none = electricalPotential s x d .dc false := by
  unfold fromPolygonSystem at hm
  cases hf : s.foldlM MeshAcc.addElec ⟨[], [], [], []⟩ with
  | error e => rw [hf] at hm; cases hm
  | ok acc =>
    rw [hf] at hm
    simp only [Except.ok.injEq] at hm
    subst hm
    rw [Elec.potential_new ⟨"", 1, 0, .mesh acc.points acc.edges acc.polygons acc.potentials 50 0⟩ x d _ trivial,
      electrical_eq s x d .dc (by
        intro e he _
        obtain ⟨paths, h, hs⟩ := hc e he
        rw [hs]; trivial)]
    congr 1
    apply List.map_congr_left
    intro p _
    apply List.map_congr_left
    intro i _
    simp only [one_mul, Shape.contrib]
    obtain ⟨h1, _, h3⟩ := mesh_fold (segComp d i p) s _ acc (by simp [MeshAcc.Ok]) hf
    have h4 : meshContrib d 0 50 acc.points acc.edges acc.polygons acc.potentials p i
        = acc.total (segComp d i p) fun n => acc.potentials.getD n 0 := by
      unfold meshContrib MeshAcc.total
      simp only [images_zero, List.map_cons, List.map_nil, List.sum_cons, List.sum_nil, add_zero]
    rw [h4, h3]
    simp only [MeshAcc.total, List.zip_nil_left, List.map_nil, List.sum_nil, zero_add, List.length_nil]
    unfold sysContrib
    rw [← List.zipIdx_map_fst 0 s, List.map_map]
    simp only [List.zipIdx_map_fst]
    congr 1
    apply List.map_congr_left
    intro e he
    obtain ⟨n, a⟩ : ∃ n, s[n]? = some e.1 ∧ e.2 = n := by
      have := List.mem_zipIdx_iff_getElem?.1 he
      exact ⟨e.2, this, rfl⟩
    have hv : acc.potentials.getD e.2 0 = e.1.dc := by
      rw [h1, a.2]
      simp [a.1]
    obtain ⟨paths, h, hs⟩ := hc e.1 (List.mem_of_getElem? a.1)
    simp only [hv, Function.comp, Elec.voltD, Elec.volt, Option.getD_some]
    unfold pathsSum
    rw [hs]
    simp only [Shape.contrib, polyContrib, images_zero, List.map_cons, List.map_nil, List.sum_cons, List.sum_nil,
      add_zero]
    congr 2
    apply List.map_congr_left
    intro path _
    rw [← boundary_sum]
    rfl

/-- C23: the call fails exactly if some electrode is not a polygon electrode. -/
theorem c23_only_polygons (s : List Elec) :
    (∃ m, fromPolygonSystem s = .ok m) ↔ ∀ e ∈ s, ∃ paths ch cn, e.shape = .polygons paths ch cn := by
  constructor
  · rintro ⟨m, hm⟩
    unfold fromPolygonSystem at hm
    cases hf : s.foldlM MeshAcc.addElec ⟨[], [], [], []⟩ with
    | error e => rw [hf] at hm; cases hm
    | ok acc => exact (mesh_fold (fun _ _ => 0) s _ acc (by simp [MeshAcc.Ok]) hf).2.1
  · intro h
    have key : ∀ (s : List Elec) (acc : MeshAcc), (∀ e ∈ s, ∃ paths ch cn, e.shape = .polygons paths ch cn) →
        ∃ acc', s.foldlM MeshAcc.addElec acc = .ok acc' := by
      intro s
      induction s with
      | nil => intro acc _; exact ⟨acc, rfl⟩
      | cons e s ih =>
        intro acc h
        obtain ⟨paths, ch, cn, hs⟩ := h e (by simp)
        obtain ⟨acc', h'⟩ := ih { paths.foldl MeshAcc.addPath acc with
          potentials := (paths.foldl MeshAcc.addPath acc).potentials ++ [e.dc] } fun e he => h e (by simp [he])
        refine ⟨acc', ?_⟩
        rw [List.foldlM_cons]
        have : acc.addElec e = .ok { paths.foldl MeshAcc.addPath acc with
            potentials := (paths.foldl MeshAcc.addPath acc).potentials ++ [e.dc] } := by
          unfold MeshAcc.addElec; rw [hs]
        rw [this]; exact h'
    obtain ⟨acc', h'⟩ := key s ⟨[], [], [], []⟩ h
    unfold fromPolygonSystem
    rw [h']
    exact ⟨_, rfl⟩

/-- two polygon electrodes, one of them with two boundaries -/
example : ∃ m, fromPolygonSystem [⟨"a", 1, 0, .polygons [[⟨0, 0⟩, ⟨1, 0⟩, ⟨0, 1⟩], [⟨2, 0⟩, ⟨3, 0⟩, ⟨2, 1⟩]] 50 0⟩,
    ⟨"b", 2, 0, .polygons [[⟨0, 0⟩, ⟨0, 1⟩, ⟨-1, 0⟩]] 50 0⟩] = .ok m :=
  (c23_only_polygons _).2 (by
    intro e he
    simp at he
    rcases he with rfl | rfl <;> exact ⟨_, _, _, rfl⟩)

end Electrode
