import Verif.Lemmas.Tensor
import Verif.Props.PolyData

/-
C91: what `to_gds` writes and `from_gds` reads.
-/
namespace Electrode

namespace Spec

/-- a file format that keeps coordinates only approximately (GDS files keep integers): every coordinate `x` becomes `r x` -/
def storePts (r : ℝ → ℝ) (xy : List V2) : List V2 := xy.map fun p => ⟨r p.x, r p.y⟩

def storeElem (r : ℝ → ℝ) : GdsElem → GdsElem
  | .boundary l t xy p => .boundary l t (storePts r xy) p
  | .path l t xy w => .path l t (storePts r xy) w
  | .text l t xy s p => .text l t (storePts r xy) s p
  | .other => .other

/-- a library after saving and loading -/
def storeLib (r : ℝ → ℝ) (lib : GdsLib) : GdsLib := ⟨lib.unit, lib.structures.map fun s => (s.1, s.2.map (storeElem r))⟩

/-- a name that can be written: ASCII characters only -/
def asciiName (s : String) : Prop := ∀ c ∈ s.toList, c.toNat < 128

/-- the polygons of all electrodes in their order, with the names of their electrodes -/
def allPolys (ps : List (String × List GPoly)) : List (String × GPoly) := ps.flatMap fun p => p.2.map fun q => (p.1, q)

/-- layers given, or all -/
def inLayers {α : Type} (ls : Option (List α)) (l : α) : Prop := ∀ m, ls = some m → l ∈ m

/-- coordinates of the file in units of the scale -/
noncomputable def scaled (unit scale : ℝ) (xy : List V2) : List V2 := xy.map fun p => ⟨p.x * unit / scale, p.y * unit / scale⟩

open Classical in
/-- the polygon an element is to give: boundaries in the polygon layers, with the name in the property -/
noncomputable def polyOf (unit : ℝ) (S : GdsSelect) : GdsElem → Option (String × List V2)
  | .boundary l t xy prop => if inLayers S.polyLayers (l, t) then some (prop.getD "", scaled unit S.scale xy) else none
  | _ => none

/-- what a path is used for -/
inductive PathUse | gap | route | bridge | nothing
  deriving DecidableEq

open Classical in
/-- paths of at least two points in the gap layers are gaps, others in the route layers routes, others in the bridge layers bridges -/
noncomputable def pathUse (S : GdsSelect) (l : Int × Int) (n : Nat) : PathUse :=
  if n < 2 then .nothing
  else if inLayers S.gapLayers l then .gap
  else if l ∈ S.routeLayers then .route
  else if l ∈ S.bridgeLayers then .bridge
  else .nothing

/-- the path an element gives for a use -/
noncomputable def pathOf (unit : ℝ) (S : GdsSelect) (u : PathUse) : GdsElem → Option (List V2)
  | .path l t xy _ => if pathUse S (l, t) xy.length = u then some (scaled unit S.scale xy) else none
  | _ => none

open Classical in
/-- texts in the name layers name their position -/
noncomputable def nameOf (unit : ℝ) (S : GdsSelect) : GdsElem → Option (String × V2)
  | .text l _ xy s _ => if inLayers S.nameLayers l then (scaled unit S.scale xy).head?.map fun p => (s, p) else none
  | _ => none

end Spec
open Spec

namespace Gds

theorem encode_ok {s : String} (h : asciiName s) : encodeAscii s = .ok s := by
  unfold encodeAscii
  rw [if_pos]
  rw [List.all_eq_true]
  intro c hc
  simpa using h c hc

/-- what one polygon gives, if nothing is clipped -/
def elemsOf (A : GdsArgs) (p : String × GPoly) (out : List V2 → List V2) : List GdsElem :=
  let prop := if p.1 = "" then none else some p.1
  (match A.textLayer with
    | some t => if p.1 = "" then [] else [GdsElem.text t.1 t.2 ((out p.2.ext).take 1) p.1 prop]
    | none => []) ++
  (match A.polyLayer with
    | some t => [GdsElem.boundary t.1 t.2 (out p.2.ext) prop]
    | none => [])

theorem polyToGds_ok (valid empty : GPoly → Bool) (A : GdsArgs) (hA : A.clip = none) (n : String) (q : GPoly) (hv : valid q = true)
    (he : empty q = false) : polyToGds valid empty A n q = .ok (elemsOf A (n, q) (gdsOut A), q.ext :: q.ints) := by
  unfold polyToGds elemsOf
  rw [hA, hv, he]
  rfl

theorem polysToGds_ok (valid empty : GPoly → Bool) (A : GdsArgs) (hA : A.clip = none) (ps : List (String × List GPoly))
    (hn : ∀ p ∈ ps, asciiName p.1) (hv : ∀ p ∈ ps, ∀ q ∈ p.2, valid q = true ∧ empty q = false) :
    polysToGds valid empty A ps = .ok ((allPolys ps).flatMap fun p => elemsOf A p (gdsOut A),
      (allPolys ps).flatMap fun p => p.2.ext :: p.2.ints) := by
  induction ps with
  | nil => rfl
  | cons p t ih =>
    obtain ⟨n, qs⟩ := p
    have h1 : pySeq (qs.map (polyToGds valid empty A n)) = .ok (qs.map fun q => (elemsOf A (n, q) (gdsOut A), q.ext :: q.ints)) :=
      pySeq_map_ok qs _ _ fun q hq => polyToGds_ok valid empty A hA n q (hv (n, qs) (by simp) q hq).1 (hv (n, qs) (by simp) q hq).2
    have h2 : (if n = "" then Except.ok "" else encodeAscii n : Py String) = .ok n := by
      split
      · rename_i h; rw [h]
      · exact encode_ok (hn (n, qs) (by simp))
    unfold polysToGds
    rw [h1, h2, ih (fun p hp => hn p (by simp [hp])) (fun p hp => hv p (by simp [hp]))]
    simp [allPolys, List.flatMap_append, List.flatMap_map, List.flatMap_def, Function.comp_def]

theorem gdsOut_len (A : GdsArgs) (l : List V2) : (gdsOut A l).length = l.length := by simp [gdsOut]

/-- reading element after element -/
theorem fold_append (unit : ℝ) (S : GdsSelect) (l1 l2 : List GdsElem) (d : GdsData) :
    (l1 ++ l2).foldlM (gdsElem unit S) d = (match l1.foldlM (gdsElem unit S) d with
      | .error e => .error e
      | .ok d' => l2.foldlM (gdsElem unit S) d' : Py GdsData) := by
  rw [List.foldlM_append]
  cases List.foldlM (gdsElem unit S) d l1 <;> rfl

theorem selected_iff {α : Type} [DecidableEq α] (ls : Option (List α)) (l : α) : selected ls l = true ↔ inLayers ls l := by
  unfold selected inLayers
  cases ls with
  | none => simp
  | some m => simp

theorem read_fold (unit : ℝ) (S : GdsSelect) (es : List GdsElem) : ∀ (d d' : GdsData), es.foldlM (gdsElem unit S) d = .ok d' →
    d' = ⟨d.polys ++ es.filterMap (polyOf unit S), d.gaps ++ es.filterMap (pathOf unit S .gap), d.routes ++ es.filterMap (pathOf unit S .route),
      d.bridges ++ es.filterMap (pathOf unit S .bridge), d.names ++ es.filterMap (nameOf unit S)⟩ := by
  induction es with
  | nil => intro d d' h; obtain rfl := Except.ok.inj h; simp
  | cons e t ih =>
    intro d d' h
    rw [List.foldlM_cons] at h
    cases e with
    | boundary l ty xy prop =>
      have h' : t.foldlM (gdsElem unit S) (if selected S.polyLayers (l, ty) then
        { d with polys := d.polys ++ [(prop.getD "", gdsIn unit S.scale xy)] } else d) = .ok d' := h
      rw [ih _ _ h']
      by_cases hs : inLayers S.polyLayers (l, ty)
      · simp [List.filterMap_cons, polyOf, pathOf, nameOf, hs, (selected_iff _ _).2 hs, gdsIn, scaled]
      · have hs' : ¬ (selected S.polyLayers (l, ty) = true) := fun h => hs ((selected_iff _ _).1 h)
        simp [List.filterMap_cons, polyOf, pathOf, nameOf, hs, hs']
    | path l ty xy w =>
      have h' : t.foldlM (gdsElem unit S) (if xy.length < 2 then d
        else if selected S.gapLayers (l, ty) then { d with gaps := d.gaps ++ [gdsIn unit S.scale xy] }
        else if (l, ty) ∈ S.routeLayers then { d with routes := d.routes ++ [gdsIn unit S.scale xy] }
        else if (l, ty) ∈ S.bridgeLayers then { d with bridges := d.bridges ++ [gdsIn unit S.scale xy] }
        else d) = .ok d' := h
      rw [ih _ _ h']
      by_cases h2 : xy.length < 2
      · simp [List.filterMap_cons, polyOf, pathOf, nameOf, pathUse, h2]
      · by_cases hg : inLayers S.gapLayers (l, ty)
        · have hg' : selected S.gapLayers (l, ty) = true := (selected_iff _ _).2 hg
          simp [List.filterMap_cons, polyOf, pathOf, nameOf, pathUse, h2, hg, hg', gdsIn, scaled]
        · have hg' : ¬ (selected S.gapLayers (l, ty) = true) := fun h => hg ((selected_iff _ _).1 h)
          by_cases hr : (l, ty) ∈ S.routeLayers
          · simp [List.filterMap_cons, polyOf, pathOf, nameOf, pathUse, h2, hg, hg', hr, gdsIn, scaled]
          · by_cases hb : (l, ty) ∈ S.bridgeLayers
            · simp [List.filterMap_cons, polyOf, pathOf, nameOf, pathUse, h2, hg, hg', hr, hb, gdsIn, scaled]
            · simp [List.filterMap_cons, polyOf, pathOf, nameOf, pathUse, h2, hg, hg', hr, hb]
    | text l ty xy str prop =>
      by_cases hs : inLayers S.nameLayers l
      · cases xy with
        | nil =>
          have : gdsElem unit S d (.text l ty [] str prop) = .error .indexError := by
            simp [gdsElem, (selected_iff _ _).2 hs, gdsIn]
          rw [this] at h
          cases h
        | cons p xy =>
          have : gdsElem unit S d (.text l ty (p :: xy) str prop)
              = .ok { d with names := d.names ++ [(str, ⟨p.x * unit / S.scale, p.y * unit / S.scale⟩)] } := by
            simp [gdsElem, (selected_iff _ _).2 hs, gdsIn]
          rw [this] at h
          rw [ih _ _ h]
          simp [List.filterMap_cons, polyOf, pathOf, nameOf, hs, scaled]
      · have hs' : ¬ (selected S.nameLayers l = true) := fun h => hs ((selected_iff _ _).1 h)
        have : gdsElem unit S d (.text l ty xy str prop) = .ok d := by simp [gdsElem, hs']
        rw [this] at h
        rw [ih _ _ h]
        simp [List.filterMap_cons, polyOf, pathOf, nameOf, hs]
    | other =>
      rw [ih d d' h]
      simp [List.filterMap_cons, polyOf, pathOf, nameOf]

/-- no text without position: reading does not fail -/
theorem read_ok (unit : ℝ) (S : GdsSelect) (es : List GdsElem) (hes : ∀ l t s p, GdsElem.text l t [] s p ∉ es) :
    ∀ d : GdsData, ∃ d', es.foldlM (gdsElem unit S) d = .ok d' := by
  induction es with
  | nil => exact fun d => ⟨d, rfl⟩
  | cons e t ih =>
    intro d
    rw [List.foldlM_cons]
    have : ∃ d1, gdsElem unit S d e = .ok d1 := by
      cases e with
      | boundary => exact ⟨_, rfl⟩
      | path => exact ⟨_, rfl⟩
      | text l ty xy s p =>
        cases xy with
        | nil => exact absurd (by simp) (hes l ty s p)
        | cons a xy =>
          unfold gdsElem
          simp only [gdsIn, List.map_cons]
          split <;> exact ⟨_, rfl⟩
      | other => exact ⟨_, rfl⟩
    obtain ⟨d1, h1⟩ := this
    rw [h1]
    exact ih (fun l t s p h => hes l t s p (by simp [h])) d1

end Gds
open Gds

namespace Gds

theorem filterMap_flatMap' {α β γ : Type} (h : α → List β) (g : β → Option γ) (l : List α) :
    (l.flatMap h).filterMap g = l.flatMap fun p => (h p).filterMap g := by
  induction l with
  | nil => rfl
  | cons a t ih => simp [ih]

end Gds

/-- **C91.** What `from_gds` reads from the structure: polygons, gaps, routes, bridges and names in the order of the elements, by the
layers given.  Nothing else fails than a text without position. -/
theorem c91_read (S : GdsSelect) (lib : GdsLib) (es : List GdsElem) (hes : findStructure S.name lib.structures = some es)
    (ht : ∀ l t s p, GdsElem.text l t [] s p ∉ es) :
    gdsRead S lib = .ok ⟨es.filterMap (polyOf lib.unit S), es.filterMap (pathOf lib.unit S .gap), es.filterMap (pathOf lib.unit S .route),
      es.filterMap (pathOf lib.unit S .bridge), es.filterMap (nameOf lib.unit S)⟩ := by
  unfold gdsRead
  rw [hes]
  obtain ⟨d, hd⟩ := read_ok lib.unit S es ht ⟨[], [], [], [], []⟩
  simp only
  rw [hd, read_fold _ _ _ _ _ hd]
  simp

/-- C91: the structure: the first if no name is given, else the first with the name. -/
theorem c91_structure (name : Option String) (structures : List (String × List GdsElem)) :
    (name = none → findStructure name structures = structures.head?.map Prod.snd) ∧
    ∀ n, name = some n → n ∈ structures.map Prod.fst →
      ∃ pre es post, structures = pre ++ (n, es) :: post ∧ n ∉ pre.map Prod.fst ∧ findStructure name structures = some es := by
  refine ⟨?_, ?_⟩
  · rintro rfl
    cases structures with
    | nil => rfl
    | cons s t => simp [findStructure]
  · rintro n rfl hn
    induction structures with
    | nil => simp at hn
    | cons s t ih =>
      obtain ⟨m, es⟩ := s
      by_cases h : n = m
      · subst h
        exact ⟨[], es, t, rfl, by simp, by simp [findStructure]⟩
      · have hn' : n ∈ t.map Prod.fst := by
          simp only [List.map_cons, List.mem_cons] at hn
          exact hn.resolve_left h
        obtain ⟨pre, es', post, rfl, h2, h3⟩ := ih hn'
        refine ⟨(m, es) :: pre, es', post, rfl, by simp [h, h2], ?_⟩
        unfold findStructure
        rw [h3]
        simp [h]

/-- **C91** (negation): a name that does not occur is not an error: the last structure is read. -/
theorem c91_missing (n : String) (structures : List (String × List GdsElem)) (hn : n ∉ structures.map Prod.fst) :
    findStructure (some n) structures = structures.getLast?.map Prod.snd := by
  induction structures with
  | nil => rfl
  | cons s t ih =>
    obtain ⟨m, es⟩ := s
    simp only [List.map_cons, List.mem_cons, not_or] at hn
    unfold findStructure
    rw [ih hn.2, if_neg (by simp [hn.1])]
    cases t with
    | nil => rfl
    | cons a t =>
      rw [List.getLast?_cons_cons, List.getLast?_eq_getLast_of_ne_nil (by simp)]
      rfl

/-- C91: without any structure, `UnboundLocalError`. -/
theorem c91_no_structure (S : GdsSelect) (unit : ℝ) : gdsRead S ⟨unit, []⟩ = .error .unboundLocalError := rfl

/-- **C91** (negation): unless gap layers are given, route and bridge layers have no effect: all their paths are gaps. -/
theorem c91_routes_ignored (S : GdsSelect) (hS : S.gapLayers = none) (lib : GdsLib) (d : GdsData) (h : gdsRead S lib = .ok d) :
    d.routes = [] ∧ d.bridges = [] ∧ gdsRead { S with routeLayers := [], bridgeLayers := [] } lib = .ok d := by
  have key : ∀ (es : List GdsElem) (a : GdsData), a.routes = [] → a.bridges = [] → ∀ b, es.foldlM (gdsElem lib.unit S) a = .ok b →
      b.routes = [] ∧ b.bridges = [] ∧ es.foldlM (gdsElem lib.unit { S with routeLayers := [], bridgeLayers := [] }) a = .ok b := by
    intro es
    induction es with
    | nil => intro a h1 h2 b hb; obtain rfl := Except.ok.inj hb; exact ⟨h1, h2, rfl⟩
    | cons e t ih =>
      intro a h1 h2 b hb
      rw [List.foldlM_cons] at hb ⊢
      have he : gdsElem lib.unit { S with routeLayers := [], bridgeLayers := [] } a e = gdsElem lib.unit S a e := by
        cases e <;> simp [gdsElem, hS, selected]
      rw [he]
      cases h : gdsElem lib.unit S a e with
      | error x => rw [h] at hb; cases hb
      | ok a' =>
        rw [h] at hb
        have : a'.routes = [] ∧ a'.bridges = [] := by
          have hr := read_fold lib.unit S [e] a a' (by rw [List.foldlM_cons, h]; rfl)
          rw [hr]
          have hp : ∀ l n, pathUse S l n ≠ .route ∧ pathUse S l n ≠ .bridge := by
            intro l n
            unfold pathUse
            by_cases hn : n < 2
            · simp [hn]
            · simp [hn, inLayers, hS]
          cases e <;> simp [h1, h2, List.filterMap_cons, pathOf, hp]
        exact ih a' this.1 this.2 b hb
  unfold gdsRead at h ⊢
  cases hf : findStructure S.name lib.structures with
  | none => rw [hf] at h; cases h
  | some es =>
    rw [hf] at h
    simp only [hf]
    exact key es _ rfl rfl d h


/-- **C91.** What is written is read again: polygons with their names and in their order, the outlines and holes of all polygons as gaps,
no routes or bridges, and the first point of every polygon of a named electrode as position of its name.  `r` is what the file
does to coordinates. -/
theorem c91_round_trip (valid empty : GPoly → Bool) (A : GdsArgs) (hclip : A.clip = none) (hname : asciiName A.name) (lp lg lt : Int × Int)
    (hlp : A.polyLayer = some lp) (hlg : A.gapLayer = some lg) (hlt : A.textLayer = some lt) (ps : List (String × List GPoly))
    (hn : ∀ p ∈ ps, asciiName p.1) (hv : ∀ p ∈ ps, ∀ q ∈ p.2, valid q = true ∧ empty q = false ∧ q.ext ≠ []) (S : GdsSelect)
    (hS : S.name = none ∨ S.name = some A.name) (hsp : inLayers S.polyLayers lp) (hsg : inLayers S.gapLayers lg)
    (hst : inLayers S.nameLayers lt.1) (r : ℝ → ℝ) :
    let f : V2 → V2 := fun p => ⟨r (p.x * A.scale / A.physUnit) * A.physUnit / S.scale, r (p.y * A.scale / A.physUnit) * A.physUnit / S.scale⟩
    ∃ lib, toGds valid empty A ps = .ok lib ∧
      gdsRead S (storeLib r lib) = .ok
        { polys := (allPolys ps).map fun p => (p.1, p.2.ext.map f)
          gaps := ((((allPolys ps).flatMap fun p => p.2.ext :: p.2.ints).filter fun l => 2 ≤ l.length).map fun l => l.map f)
          routes := []
          bridges := []
          names := ((allPolys ps).filter fun p => p.1 ≠ "").flatMap fun p => (p.2.ext.take 1).map fun v => (p.1, f v) } := by
  intro f
  have hw := polysToGds_ok valid empty A hclip ps hn fun p hp q hq => ⟨(hv p hp q hq).1, (hv p hp q hq).2.1⟩
  refine ⟨⟨A.physUnit, [(A.name, ((allPolys ps).flatMap fun p => elemsOf A p (gdsOut A)) ++
    (((allPolys ps).flatMap fun p => p.2.ext :: p.2.ints).map fun loop =>
      GdsElem.path lg.1 lg.2 (gdsOut A loop) (pyInt (A.gapWidth * A.scale / A.physUnit))))]⟩, ?_, ?_⟩
  · unfold toGds
    rw [encode_ok hname, hw, hlg]
  · have hext : ∀ p ∈ allPolys ps, p.2.ext ≠ [] := by
      intro p hp
      simp only [allPolys, List.mem_flatMap, List.mem_map] at hp
      obtain ⟨a, ha, q, hq, rfl⟩ := hp
      exact (hv a ha q hq).2.2
    have hf : ∀ l : List V2, scaled A.physUnit S.scale (storePts r (gdsOut A l)) = l.map f := by
      intro l
      simp [scaled, storePts, gdsOut, f, Function.comp_def]
    rw [c91_read S _ ((((allPolys ps).flatMap fun p => elemsOf A p (gdsOut A)) ++
      (((allPolys ps).flatMap fun p => p.2.ext :: p.2.ints).map fun loop =>
      GdsElem.path lg.1 lg.2 (gdsOut A loop) (pyInt (A.gapWidth * A.scale / A.physUnit)))).map (storeElem r))]
    · generalize hloops : ((allPolys ps).flatMap fun p => p.2.ext :: p.2.ints) = loops
      simp only [show ∀ lib, (storeLib r lib).unit = lib.unit from fun _ => rfl]
      rw [List.map_append, List.filterMap_append, List.filterMap_append, List.filterMap_append, List.filterMap_append, List.filterMap_append,
        List.map_flatMap, filterMap_flatMap', filterMap_flatMap', filterMap_flatMap', filterMap_flatMap', filterMap_flatMap']
      have hpo : ∀ p : String × GPoly, ((elemsOf A p (gdsOut A)).map (storeElem r)).filterMap (polyOf A.physUnit S) = [(p.1, p.2.ext.map f)] := by
        intro p
        by_cases h : p.1 = ""
        · simp [elemsOf, hlt, hlp, h, storeElem, List.filterMap_cons, polyOf, hsp, hf]
        · simp [elemsOf, hlt, hlp, h, storeElem, List.filterMap_cons, polyOf, hsp, hf]
      have hpa : ∀ (u : PathUse) (p : String × GPoly), ((elemsOf A p (gdsOut A)).map (storeElem r)).filterMap (pathOf A.physUnit S u) = [] := by
        intro u p
        by_cases h : p.1 = ""
        · simp [elemsOf, hlt, hlp, h, storeElem, List.filterMap_cons, pathOf]
        · simp [elemsOf, hlt, hlp, h, storeElem, List.filterMap_cons, pathOf]
      have hna : ∀ p : String × GPoly, ((elemsOf A p (gdsOut A)).map (storeElem r)).filterMap (nameOf A.physUnit S)
          = if p.1 = "" then [] else (p.2.ext.take 1).map fun v => (p.1, f v) := by
        intro p
        by_cases h : p.1 = ""
        · simp [elemsOf, hlt, hlp, h, storeElem, List.filterMap_cons, nameOf]
        · cases he : p.2.ext with
          | nil => simp [elemsOf, hlt, hlp, h, storeElem, List.filterMap_cons, nameOf, hst, he, gdsOut, storePts, scaled]
          | cons v t => simp [elemsOf, hlt, hlp, h, storeElem, List.filterMap_cons, nameOf, hst, he, gdsOut, storePts, scaled, f]
      simp only [hpo, hpa, hna]
      have hl : ∀ (u : PathUse), u ≠ .nothing → ∀ (loops : List (List V2)), ((loops.map fun loop =>
          GdsElem.path lg.1 lg.2 (gdsOut A loop) (pyInt (A.gapWidth * A.scale / A.physUnit))).map (storeElem r)).filterMap
            (pathOf A.physUnit S u) = if u = .gap then (loops.filter fun l => 2 ≤ l.length).map fun l => l.map f else [] := by
        intro u hu loops
        induction loops with
        | nil => simp
        | cons a t ih =>
          rw [List.map_cons, List.map_cons, List.filterMap_cons, ih]
          have hlen : (storePts r (gdsOut A a)).length = a.length := by simp [storePts, gdsOut]
          simp only [storeElem, pathOf, hlen, hf]
          unfold pathUse
          by_cases ha : a.length < 2
          · have ha' : ¬ (2 ≤ a.length) := by omega
            cases u <;> first | exact absurd rfl hu | simp [ha, ha', hsg]
          · have ha' : 2 ≤ a.length := by omega
            cases u <;> first | exact absurd rfl hu | simp [ha, ha', hsg]
      have hl2 : ∀ (loops : List (List V2)), ((loops.map fun loop =>
          GdsElem.path lg.1 lg.2 (gdsOut A loop) (pyInt (A.gapWidth * A.scale / A.physUnit))).map (storeElem r)).filterMap
            (polyOf A.physUnit S) = [] := by
        intro loops
        induction loops with
        | nil => rfl
        | cons a t ih => rw [List.map_cons, List.map_cons, List.filterMap_cons, ih]; rfl
      have hl3 : ∀ (loops : List (List V2)), ((loops.map fun loop =>
          GdsElem.path lg.1 lg.2 (gdsOut A loop) (pyInt (A.gapWidth * A.scale / A.physUnit))).map (storeElem r)).filterMap
            (nameOf A.physUnit S) = [] := by
        intro loops
        induction loops with
        | nil => rfl
        | cons a t ih => rw [List.map_cons, List.map_cons, List.filterMap_cons, ih]; rfl
      rw [hl .gap (by simp), hl .route (by simp), hl .bridge (by simp), hl2, hl3]
      have hfl : ∀ l : List (String × GPoly), (l.flatMap fun p => if p.1 = "" then [] else (p.2.ext.take 1).map fun v => (p.1, f v))
          = (l.filter fun p => p.1 ≠ "").flatMap fun p => (p.2.ext.take 1).map fun v => (p.1, f v) := by
        intro l
        induction l with
        | nil => rfl
        | cons a t ih =>
          rw [List.flatMap_cons, ih]
          by_cases h : a.1 = ""
          · simp [h]
          · simp [h]
      rw [hfl]
      have hs : ∀ l : List (String × GPoly), (l.flatMap fun p => [(p.1, p.2.ext.map f)]) = l.map fun p => (p.1, p.2.ext.map f) := by
        intro l
        induction l with
        | nil => rfl
        | cons a t ih => simp [ih]
      rw [hs]
      simp
    · simp only [storeLib, List.map_cons, List.map_nil, findStructure]
      rw [if_pos hS]
    · intro l t s p hmem
      rw [List.mem_map] at hmem
      obtain ⟨e, he, h⟩ := hmem
      rw [List.mem_append, List.mem_flatMap, List.mem_map] at he
      rcases he with ⟨q, hq, he⟩ | ⟨q, hq, rfl⟩
      · have hne := hext q hq
        unfold elemsOf at he
        rw [hlt, hlp] at he
        by_cases hq1 : q.1 = ""
        · simp only [hq1, if_true, List.nil_append, List.mem_singleton] at he
          subst he
          cases h
        · simp only [hq1, if_false, List.mem_append, List.mem_singleton] at he
          rcases he with rfl | rfl
          · simp only [storeElem, GdsElem.text.injEq] at h
            obtain ⟨v, l', hv'⟩ := List.exists_cons_of_ne_nil hne
            rw [hv'] at h
            simp [storePts, gdsOut] at h
          · cases h
      · cases h

/-- C91: if the file keeps coordinates up to `δ` units, and is read with the scale it was written with, no coordinate is off by more than
`δ` units of the file. -/
theorem c91_error (r : ℝ → ℝ) (δ scale unit : ℝ) (hs : scale ≠ 0) (hu : unit ≠ 0) (hr : ∀ x, |r x - x| ≤ δ) (c : ℝ) :
    |r (c * scale / unit) * unit / scale - c| ≤ δ * |unit / scale| := by
  have : r (c * scale / unit) * unit / scale - c = (r (c * scale / unit) - c * scale / unit) * (unit / scale) := by
    field_simp
  rw [this, abs_mul]
  exact mul_le_mul_of_nonneg_right (hr _) (abs_nonneg _)

/-- C91: a file that keeps integers (nearest ones) with the default unit of 1 nm keeps positions to half a nanometre; exact storage keeps
them exactly. -/
theorem c91_integers (c : ℝ) : (∀ x : ℝ, |(round x : ℝ) - x| ≤ 1 / 2) ∧
    ∀ scale unit : ℝ, scale ≠ 0 → unit ≠ 0 → id (c * scale / unit) * unit / scale = c := by
  refine ⟨fun x => by rw [abs_sub_comm]; exact abs_sub_round x, fun scale unit hs hu => ?_⟩
  simp only [id]
  field_simp

/-- **C91** (negation): without a gap layer holes are not written at all: the file is the same as for the filled polygons. -/
theorem c91_holes_lost (valid empty : GPoly → Bool) (A : GdsArgs) (hclip : A.clip = none) (hgap : A.gapLayer = none)
    (ps : List (String × List GPoly)) (hv : ∀ q, valid q = true) (he : ∀ q : GPoly, empty q = decide (q.ext = [])) :
    toGds valid empty A ps = toGds valid empty A (ps.map fun p => (p.1, p.2.map fun q => ⟨q.ext, []⟩)) := by
  have h1 : ∀ n q, (polyToGds valid empty A n q).map Prod.fst = (polyToGds valid empty A n ⟨q.ext, []⟩).map Prod.fst := by
    intro n q
    unfold polyToGds
    rw [hv, hv, he, he, hclip]
    simp only [Bool.true_eq_false, if_false]
    split <;> rfl
  have h2 : ∀ l : List GPoly, ∀ n, (pySeq (l.map (polyToGds valid empty A n))).map (fun rs => (rs.map Prod.fst).flatten)
      = (pySeq ((l.map fun q : GPoly => (⟨q.ext, []⟩ : GPoly)).map (polyToGds valid empty A n))).map fun rs => (rs.map Prod.fst).flatten := by
    intro l n
    induction l with
    | nil => rfl
    | cons q t ih =>
      have hq := h1 n q
      simp only [List.map_cons, pySeq]
      cases ha : polyToGds valid empty A n q <;> cases hb : polyToGds valid empty A n ⟨q.ext, []⟩ <;> rw [ha, hb] at hq
      · simpa [Except.map] using hq
      · simp [Except.map] at hq
      · simp [Except.map] at hq
      · rename_i a b
        have hab : a.1 = b.1 := by simpa [Except.map] using hq
        cases hc : pySeq (t.map (polyToGds valid empty A n)) <;>
          cases hd : pySeq ((t.map fun q : GPoly => (⟨q.ext, []⟩ : GPoly)).map (polyToGds valid empty A n)) <;> rw [hc, hd] at ih
        · simpa [Except.map] using ih
        · simp [Except.map] at ih
        · simp [Except.map] at ih
        · simp only [Except.map, Except.ok.injEq] at ih ⊢
          simp [hab, ih]
  have h3 : ∀ l : List (String × List GPoly), (polysToGds valid empty A l).map Prod.fst
      = (polysToGds valid empty A (l.map fun p => (p.1, p.2.map fun q => ⟨q.ext, []⟩))).map Prod.fst := by
    intro l
    induction l with
    | nil => rfl
    | cons p t ih =>
      obtain ⟨n, qs⟩ := p
      have hq := h2 qs n
      simp only [List.map_cons, polysToGds]
      generalize (if n = "" then Except.ok "" else encodeAscii n : Py String) = en
      cases en with
      | error e => rfl
      | ok _ =>
        cases ha : pySeq (qs.map (polyToGds valid empty A n)) <;>
          cases hb : pySeq ((qs.map fun q : GPoly => (⟨q.ext, []⟩ : GPoly)).map (polyToGds valid empty A n)) <;> rw [ha, hb] at hq
        · simpa [Except.map] using hq
        · simp [Except.map] at hq
        · simp [Except.map] at hq
        · simp only [Except.map, Except.ok.injEq] at hq
          cases hc : polysToGds valid empty A t <;>
            cases hd : polysToGds valid empty A (t.map fun p => (p.1, p.2.map fun q => ⟨q.ext, []⟩)) <;> rw [hc, hd] at ih
          · simpa [Except.map] using ih
          · simp [Except.map] at ih
          · simp [Except.map] at ih
          · simp only [Except.map, Except.ok.injEq] at ih ⊢
            rw [hq, ih]
  unfold toGds
  have h := h3 ps
  cases encodeAscii A.name with
  | error e => rfl
  | ok n =>
    cases ha : polysToGds valid empty A ps <;>
      cases hb : polysToGds valid empty A (ps.map fun p => (p.1, p.2.map fun q => ⟨q.ext, []⟩)) <;> rw [ha, hb] at h
    · simpa [Except.map] using h
    · simp [Except.map] at h
    · simp [Except.map] at h
    · simp only [Except.map, Except.ok.injEq] at h
      simp only [hgap, h]

namespace Gds

theorem padsLoop_own (hit : Nat → Nat → Bool) (k : Nat) : ∀ (pad m : Nat), (∀ i, pad ≤ i → i < pad + k → hit i i = true) → k ≤ m →
    padsLoop hit pad k (List.range' pad m) = ((List.range' pad k).map (fun i => (some i, i)), List.range' (pad + k) (m - k)) := by
  induction k with
  | zero => intro pad m _ _; simp [padsLoop]
  | succ k ih =>
    intro pad m h hm
    obtain ⟨m, rfl⟩ : ∃ j, m = j + 1 := ⟨m - 1, by omega⟩
    have hl : padLoop (hit pad) (List.range' pad (m + 1)) = (some pad, List.range' (pad + 1) m) := by
      unfold padLoop
      simp [List.range'_succ, h pad (le_refl _) (by omega)]
    unfold padsLoop
    rw [hl]
    simp only
    by_cases hr : List.range' (pad + 1) m = []
    · rw [if_pos hr]
      have hm0 : m = 0 := by simpa using hr
      have hk0 : k = 0 := by omega
      subst hm0 hk0
      simp
    · rw [if_neg hr, ih (pad + 1) m (fun i h1 h2 => h i (by omega) (by omega)) (by omega)]
      simp only [List.range'_succ, List.map_cons, Nat.reduceSubDiff]
      rw [show pad + 1 + k = pad + (k + 1) by ring]

theorem nameFragments_own {G : Type} (hit : Nat → Nat → Bool) (names : List String) (frags : List (String × G))
    (hn : ∀ (i : Nat) n, names[i]? = some n → ∃ g, frags[i]? = some (n, g)) (hh : ∀ i, i < names.length → hit i i = true) :
    nameFragments hit names frags = frags := by
  unfold nameFragments
  split
  · rfl
  · have hlen : names.length ≤ frags.length := by
      by_contra h
      push Not at h
      obtain ⟨g, hg⟩ := hn frags.length names[frags.length] (by simp [h])
      simp at hg
    unfold assignToPad
    have hr := padsLoop_own hit names.length 0 frags.length (fun i _ h => hh i (by omega)) hlen
    rw [← List.range_eq_range'] at hr
    rw [hr]
    simp only [zero_add, List.filterMap_append, List.filterMap_map]
    have key : ∀ (k s : Nat) (g : Nat → Option (String × G)), s + k ≤ frags.length → (∀ i, s ≤ i → i < s + k → g i = frags[i]?) →
        (List.range' s k).filterMap g = (frags.drop s).take k := by
      intro k
      induction k with
      | zero => intro s g _ _; simp
      | succ k ih =>
        intro s g h1 h2
        rw [List.range'_succ, List.filterMap_cons, h2 s (le_refl _) (by omega), List.getElem?_eq_getElem (by omega),
          ih (s + 1) g (by omega) (fun i h3 h4 => h2 i (by omega) (by omega)), List.drop_eq_getElem_cons (by omega : s < frags.length), List.take_succ_cons]
    rw [← List.range_eq_range', List.range_eq_range', key _ 0 _ (by omega), key _ names.length _ (by omega)]
    · rw [List.drop_zero, show frags.length - names.length = (frags.drop names.length).length by simp, List.take_length, List.take_append_drop]
    · intro i h1 h2
      simp
    · intro i h1 h2
      obtain ⟨g, hg⟩ := hn i names[i] (by simp)
      rw [zero_add] at h2
      simp [hg, h2]

end Gds

variable {G : Type} {L : DataLib G}

/-- **C91.** Names given by position: if the `i`-th position is in the `i`-th piece and its name is that of the piece, as for the texts
`to_gds` writes when all electrodes are named, then `from_data` leaves names and order of all pieces as they are (also of touching
ones, where a position can be in several pieces). -/
theorem c91_names (polys : List (String × List V2)) (gaps routes bridges : List (List V2)) (names : List (String × V2)) (edge buffer : ℝ)
    (frags : List (String × G)) (h0 : fromData L polys gaps routes bridges [] edge buffer = .ok frags)
    (hn : ∀ (i : Nat) n v, names[i]? = some (n, v) → ∃ g, frags[i]? = some (n, g) ∧ L.hit v g = true) :
    fromData L polys gaps routes bridges names edge buffer = .ok frags := by
  unfold fromData at h0 ⊢
  simp only at h0 ⊢
  split at h0
  · cases h0
  · rename_i fr f3 heq
    generalize (if routes = [] then f3 else L.diff f3 (L.strips routes buffer)) = f4 at h0 ⊢
    by_cases hv : L.valid f4 = false
    · rw [if_pos hv] at h0; cases h0
    · rw [if_neg hv] at h0
      rw [if_neg hv]
      have hnil : ∀ hit (l : List (String × G)), nameFragments hit (List.map Prod.fst ([] : List (String × V2))) l = l :=
        fun _ _ => by simp [nameFragments]
      rw [hnil] at h0
      have h0' := Except.ok.inj h0
      rw [h0']
      rw [nameFragments_own]
      · intro i n hi
        rw [List.getElem?_map] at hi
        obtain ⟨p, hp, rfl⟩ := Option.map_eq_some_iff.1 hi
        obtain ⟨g, hg, -⟩ := hn i p.1 p.2 hp
        exact ⟨g, hg⟩
      · intro i hi
        rw [List.length_map] at hi
        obtain ⟨g, hg, hh⟩ := hn i names[i].1 names[i].2 (by simp [hi])
        simp [hi, hg, hh]

/-- **C91** (negation): if a piece without name comes before the electrode, and the position of the name of the electrode is in both (they
touch there), both get the name. -/
theorem c91_wrong_name (polys : List (String × List V2)) (gaps routes bridges : List (List V2)) (n : String) (v : V2) (edge buffer : ℝ)
    (p q : G) (h0 : fromData L polys gaps routes bridges [] edge buffer = .ok [("", p), (n, q)]) (hp : L.hit v p = true) :
    fromData L polys gaps routes bridges [(n, v)] edge buffer = .ok [(n, p), (n, q)] := by
  unfold fromData at h0 ⊢
  simp only at h0 ⊢
  split at h0
  · cases h0
  · rename_i fr f3 heq
    generalize (if routes = [] then f3 else L.diff f3 (L.strips routes buffer)) = f4 at h0 ⊢
    by_cases hv : L.valid f4 = false
    · rw [if_pos hv] at h0; cases h0
    · rw [if_neg hv] at h0
      rw [if_neg hv]
      have hnil : ∀ hit (l : List (String × G)), nameFragments hit (List.map Prod.fst ([] : List (String × V2))) l = l :=
        fun _ _ => by simp [nameFragments]
      rw [hnil] at h0
      rw [Except.ok.inj h0]
      simp [nameFragments, assignToPad, padsLoop, padLoop, List.range_succ, hp]

/-- a library where the case of `c91_wrong_name` occurs, and, without the piece that has no name, that of `c91_names` -/
example : ∃ p q, fromData setDataLib [("", []), ("a", [])] [] [] [] [] 2 1 = .ok [("", p), ("a", q)] ∧ setDataLib.hit ⟨0, 0⟩ p = true ∧
    fromData setDataLib [("a", [])] [] [] [] [] 2 1 = .ok [("a", p)] := by
  refine ⟨setDataLib.inter (setDataLib.orient ((setDataLib.polygonize []).headD setDataLib.empty)) (setDataLib.corners (squareCorners 2)),
    setDataLib.inter (setDataLib.orient ((setDataLib.polygonize []).headD setDataLib.empty)) (setDataLib.corners (squareCorners 2)), ?_, ?_, ?_⟩
  · simp [fromData, cutPolys, nameFragments, setDataLib, setLib]
  · simp [setDataLib, setLib, squareCorners, squareSet]
  · simp [fromData, cutPolys, nameFragments, setDataLib, setLib]

/-- the hypotheses of `c91_round_trip` are met: a triangle with a hole in an electrode with a name, read with the default layers -/
example : ∃ lib, toGds (fun _ => true) (fun _ => false) ⟨1 / 10 ^ 6, some (1, 0), some (2, 0), some (3, 0), 1 / 10 ^ 9, "polygons", none, 0⟩
      [("a", [⟨[⟨0, 0⟩, ⟨4, 0⟩, ⟨0, 4⟩, ⟨0, 0⟩], [[⟨1, 1⟩, ⟨2, 1⟩, ⟨1, 2⟩, ⟨1, 1⟩]]⟩])] = .ok lib ∧
    ∃ d, gdsRead ⟨1 / 10 ^ 6, none, none, none, [], [], none⟩ (storeLib id lib) = .ok d ∧ d.polys.map Prod.fst = ["a"] ∧ d.gaps.length = 2 ∧
      d.names.map Prod.fst = ["a"] := by
  have ha : ∀ c ∈ "polygons".toList, c.toNat < 128 := by decide
  have hb : ∀ c ∈ "a".toList, c.toNat < 128 := by decide
  obtain ⟨lib, h1, h2⟩ := c91_round_trip (fun _ => true) (fun _ => false)
    ⟨1 / 10 ^ 6, some (1, 0), some (2, 0), some (3, 0), 1 / 10 ^ 9, "polygons", none, 0⟩ rfl ha (1, 0) (2, 0) (3, 0) rfl rfl rfl
    [("a", [⟨[⟨0, 0⟩, ⟨4, 0⟩, ⟨0, 4⟩, ⟨0, 0⟩], [[⟨1, 1⟩, ⟨2, 1⟩, ⟨1, 2⟩, ⟨1, 1⟩]]⟩])] (by intro p hp; rw [List.mem_singleton] at hp; rw [hp]; exact hb) (by simp)
    ⟨1 / 10 ^ 6, none, none, none, [], [], none⟩ (Or.inl rfl) (by simp [inLayers]) (by simp [inLayers]) (by simp [inLayers]) id
  exact ⟨lib, h1, _, h2, by simp [allPolys], by simp [allPolys], by simp [allPolys]⟩

end Electrode
