import Verif.Lemmas.Kronecker

/-
Tools for identities between polynomial expressions whose variables satisfy quadratic
relations `v_i ^ 2 = w`: derivatives with pruning of zeros, splitting into even and odd part
in `v_i`, and homogeneity.
-/
namespace Electrode
namespace PExpr

/-! ### constructors that prune zeros and ones -/

def add' : PExpr → PExpr → PExpr
  | c 0, b => b
  | a, c 0 => a
  | a, b => add a b

def sub' : PExpr → PExpr → PExpr
  | a, c 0 => a
  | c 0, b => neg b
  | a, b => sub a b

def neg' : PExpr → PExpr
  | c 0 => c 0
  | a => neg a

def mul' : PExpr → PExpr → PExpr
  | c 0, _ => c 0
  | _, c 0 => c 0
  | c 1, b => b
  | a, c 1 => a
  | a, b => mul a b

def pow' (a : PExpr) : Nat → PExpr
  | 0 => c 1
  | 1 => a
  | n => pow a n

section
variable {R : Type*} [CommRing R] (ρ : Nat → R)

theorem add'_eval (a b : PExpr) : (add' a b).eval ρ = a.eval ρ + b.eval ρ := by
  unfold add'; split <;> simp [eval]

theorem sub'_eval (a b : PExpr) : (sub' a b).eval ρ = a.eval ρ - b.eval ρ := by
  unfold sub'; split <;> simp [eval]

theorem neg'_eval (a : PExpr) : (neg' a).eval ρ = -a.eval ρ := by
  unfold neg'; split <;> simp [eval]

theorem mul'_eval (a b : PExpr) : (mul' a b).eval ρ = a.eval ρ * b.eval ρ := by
  unfold mul'; split <;> simp [eval]

theorem pow'_eval (a : PExpr) (n : Nat) : (pow' a n).eval ρ = a.eval ρ ^ n := by
  unfold pow'; split <;> simp [eval]

end

/-- derivative, given the derivative `δ i` of each variable, without zero terms -/
def diffS (δ : Nat → PExpr) : PExpr → PExpr
  | c _ => c 0
  | v i => δ i
  | neg a => neg' (diffS δ a)
  | add a b => add' (diffS δ a) (diffS δ b)
  | sub a b => sub' (diffS δ a) (diffS δ b)
  | mul a b => add' (mul' (diffS δ a) b) (mul' a (diffS δ b))
  | pow a n => mul' (mul' (c n) (pow' a (n - 1))) (diffS δ a)

/-- value of the derivative -/
theorem diffS_eval {R : Type*} [CommRing R] (δ : Nat → PExpr) (ρ : Nat → R) : ∀ e : PExpr,
    (diffS δ e).eval ρ = match e with
      | c _ => 0
      | v i => (δ i).eval ρ
      | neg a => -(diffS δ a).eval ρ
      | add a b => (diffS δ a).eval ρ + (diffS δ b).eval ρ
      | sub a b => (diffS δ a).eval ρ - (diffS δ b).eval ρ
      | mul a b => (diffS δ a).eval ρ * b.eval ρ + a.eval ρ * (diffS δ b).eval ρ
      | pow a n => (n : R) * a.eval ρ ^ (n - 1) * (diffS δ a).eval ρ := by
  intro e
  cases e <;> simp [diffS, neg'_eval, add'_eval, sub'_eval, mul'_eval, pow'_eval, eval]

/-- even and odd part in the variable `i`, with `v_i ^ 2` replaced by `w` -/
def splitSq (i : Nat) (w : PExpr) : PExpr → PExpr × PExpr
  | c n => (c n, c 0)
  | v j => if j = i then (c 0, c 1) else (v j, c 0)
  | neg a => let p := splitSq i w a; (neg' p.1, neg' p.2)
  | add a b => let p := splitSq i w a; let q := splitSq i w b; (add' p.1 q.1, add' p.2 q.2)
  | sub a b => let p := splitSq i w a; let q := splitSq i w b; (sub' p.1 q.1, sub' p.2 q.2)
  | mul a b =>
    let p := splitSq i w a
    let q := splitSq i w b
    (add' (mul' p.1 q.1) (mul' (mul' p.2 q.2) w), add' (mul' p.1 q.2) (mul' p.2 q.1))
  | pow a n =>
    if a = v i then (if n % 2 = 0 then (pow' w (n / 2), c 0) else (c 0, pow' w (n / 2)))
    else
      let p := splitSq i w a
      if p.2 = c 0 then (pow' p.1 n, c 0)
      else n.rec (c 1, c 0) fun _ q =>
        (add' (mul' p.1 q.1) (mul' (mul' p.2 q.2) w), add' (mul' p.1 q.2) (mul' p.2 q.1))

theorem splitSq_eval {R : Type*} [CommRing R] (i : Nat) (w : PExpr) (ρ : Nat → R) (h : ρ i ^ 2 = w.eval ρ) (e : PExpr) :
    e.eval ρ = (splitSq i w e).1.eval ρ + (splitSq i w e).2.eval ρ * ρ i := by
  induction e with
  | c n => simp [splitSq, eval]
  | v j =>
    simp only [splitSq]
    split
    · rename_i hj; simp [eval, hj]
    · simp [eval]
  | neg a ih => simp only [splitSq, neg'_eval, eval]; rw [ih]; ring
  | add a b ha hb => simp only [splitSq, add'_eval, eval]; rw [ha, hb]; ring
  | sub a b ha hb => simp only [splitSq, sub'_eval, eval]; rw [ha, hb]; ring
  | mul a b ha hb =>
    simp only [splitSq, add'_eval, mul'_eval, eval]
    rw [ha, hb, ← h]; ring
  | pow a n ih =>
    simp only [splitSq]
    split
    · rename_i ha
      subst ha
      split
      · rename_i hn
        simp only [pow'_eval, eval, ← h, ← pow_mul]
        have : 2 * (n / 2) = n := by omega
        rw [this]; simp
      · rename_i hn
        simp only [pow'_eval, eval, ← h, ← pow_mul, ← pow_succ]
        have : 2 * (n / 2) + 1 = n := by omega
        rw [this]; simp
    · split
      · rename_i h2
        rw [h2] at ih
        simp only [eval, pow'_eval]
        rw [ih]; simp [eval]
      · simp only [eval]
        induction n with
        | zero => simp [eval]
        | succ n ihn =>
          simp only [add'_eval, mul'_eval]
          rw [pow_succ, ihn, ih, ← h]; ring

/-- replace a variable by 1 -/
def setOne (i : Nat) : PExpr → PExpr
  | c n => c n
  | v j => if j = i then c 1 else v j
  | neg a => neg (setOne i a)
  | add a b => add (setOne i a) (setOne i b)
  | sub a b => sub (setOne i a) (setOne i b)
  | mul a b => mul' (setOne i a) (setOne i b)
  | pow a n => if a = v i then c 1 else pow (setOne i a) n

theorem setOne_eval {R : Type*} [CommRing R] (i : Nat) (ρ : Nat → R) (h : ρ i = 1) (e : PExpr) :
    (setOne i e).eval ρ = e.eval ρ := by
  induction e with
  | c n => rfl
  | v j => simp only [setOne]; split <;> simp [eval, *]
  | neg a ih => simp [setOne, eval, ih]
  | add a b ha hb => simp [setOne, eval, ha, hb]
  | sub a b ha hb => simp [setOne, eval, ha, hb]
  | mul a b ha hb => simp [setOne, mul'_eval, eval, ha, hb]
  | pow a n ih =>
    simp only [setOne]
    split
    · rename_i ha; subst ha; simp [eval, h]
    · simp [eval, ih]

/-- degree with weights `wt`, if homogeneous -/
def homDeg (wt : Nat → Nat) : PExpr → Option Nat
  | c _ => some 0
  | v i => some (wt i)
  | neg a => homDeg wt a
  | add a b => match homDeg wt a, homDeg wt b with
    | some m, some n => if m = n then some m else none
    | _, _ => none
  | sub a b => match homDeg wt a, homDeg wt b with
    | some m, some n => if m = n then some m else none
    | _, _ => none
  | mul a b => match homDeg wt a, homDeg wt b with
    | some m, some n => some (m + n)
    | _, _ => none
  | pow a n => match homDeg wt a with
    | some m => some (m * n)
    | none => none

theorem homDeg_eval {R : Type*} [CommRing R] (wt : Nat → Nat) (s : R) (ρ : Nat → R) (e : PExpr) :
    ∀ d, homDeg wt e = some d → e.eval (fun i => s ^ wt i * ρ i) = s ^ d * e.eval ρ := by
  induction e with
  | c n => intro d h; simp only [homDeg, Option.some.injEq] at h; subst h; simp [eval]
  | v i => intro d h; simp only [homDeg, Option.some.injEq] at h; subst h; rfl
  | neg a ih => intro d h; simp only [eval, ih d h]; ring
  | add a b ha hb =>
    intro d h
    simp only [homDeg] at h
    split at h
    · rename_i m n hm hn
      split at h
      · rename_i hmn
        subst hmn
        simp only [Option.some.injEq] at h; subst h
        simp only [eval, ha _ hm, hb _ hn]; ring
      · cases h
    · cases h
  | sub a b ha hb =>
    intro d h
    simp only [homDeg] at h
    split at h
    · rename_i m n hm hn
      split at h
      · rename_i hmn
        subst hmn
        simp only [Option.some.injEq] at h; subst h
        simp only [eval, ha _ hm, hb _ hn]; ring
      · cases h
    · cases h
  | mul a b ha hb =>
    intro d h
    simp only [homDeg] at h
    split at h
    · rename_i m n hm hn
      simp only [Option.some.injEq] at h; subst h
      simp only [eval, ha _ hm, hb _ hn]; ring
    · cases h
  | pow a n ih =>
    intro d h
    simp only [homDeg] at h
    split at h
    · rename_i m hm
      simp only [Option.some.injEq] at h; subst h
      simp only [eval, ih _ hm]; ring
    · cases h

/-! ### coefficients in one variable -/

/-- sum of coefficient lists -/
def coAdd : List PExpr → List PExpr → List PExpr
  | [], l => l
  | l, [] => l
  | a :: l, b :: m => add' a b :: coAdd l m

/-- product of a coefficient list with an expression -/
def coScale (a : PExpr) (l : List PExpr) : List PExpr := l.map (mul' a)

/-- product of coefficient lists -/
def coMul : List PExpr → List PExpr → List PExpr
  | [], _ => []
  | a :: l, m => coAdd (coScale a m) (c 0 :: coMul l m)

/-- power of a coefficient list -/
def coPow (l : List PExpr) : Nat → List PExpr
  | 0 => [c 1]
  | n + 1 => coMul l (coPow l n)

/-- does the variable occur -/
def hasVar (i : Nat) : PExpr → Bool
  | c _ => false
  | v j => j == i
  | neg a => hasVar i a
  | add a b => hasVar i a || hasVar i b
  | sub a b => hasVar i a || hasVar i b
  | mul a b => hasVar i a || hasVar i b
  | pow a _ => hasVar i a

/-- coefficients of the powers of `v i` -/
def coeffs (i : Nat) (e : PExpr) : List PExpr :=
  if hasVar i e then
    match e with
    | c n => [c n]
    | v j => if j = i then [c 0, c 1] else [v j]
    | neg a => (coeffs i a).map neg'
    | add a b => coAdd (coeffs i a) (coeffs i b)
    | sub a b => coAdd (coeffs i a) ((coeffs i b).map neg')
    | mul a b => coMul (coeffs i a) (coeffs i b)
    | pow a n => coPow (coeffs i a) n
  else [e]

section
variable {R : Type*} [CommRing R] (ρ : Nat → R) (t : R)

/-- value of a coefficient list -/
def coEval : List PExpr → R
  | [] => 0
  | a :: l => a.eval ρ + t * coEval l

theorem coAdd_eval : ∀ l m : List PExpr, coEval ρ t (coAdd l m) = coEval ρ t l + coEval ρ t m
  | [], m => by simp [coAdd, coEval]
  | a :: l, [] => by simp [coAdd, coEval]
  | a :: l, b :: m => by simp only [coAdd, coEval, add'_eval, coAdd_eval l m]; ring

theorem coScale_eval (a : PExpr) (l : List PExpr) : coEval ρ t (coScale a l) = a.eval ρ * coEval ρ t l := by
  induction l with
  | nil => simp [coScale, coEval]
  | cons b l ih =>
    have : coScale a (b :: l) = mul' a b :: coScale a l := rfl
    rw [this]; simp only [coEval, mul'_eval, ih]; ring

theorem coMul_eval (l m : List PExpr) : coEval ρ t (coMul l m) = coEval ρ t l * coEval ρ t m := by
  induction l with
  | nil => simp [coMul, coEval]
  | cons a l ih => simp only [coMul, coAdd_eval, coScale_eval, coEval, ih, eval]; push_cast; ring

theorem coPow_eval (l : List PExpr) (n : Nat) : coEval ρ t (coPow l n) = coEval ρ t l ^ n := by
  induction n with
  | zero => simp [coPow, coEval, eval]
  | succ n ih => rw [coPow, coMul_eval, ih, pow_succ, mul_comm]

theorem coNeg_eval (l : List PExpr) : coEval ρ t (l.map neg') = -coEval ρ t l := by
  induction l with
  | nil => simp [coEval]
  | cons a l ih => simp only [List.map_cons, coEval, neg'_eval, ih]; ring

theorem coeffs_eval (i : Nat) (e : PExpr) : e.eval ρ = coEval ρ (ρ i) (coeffs i e) := by
  have aux : ∀ e : PExpr, e.eval ρ = coEval ρ (ρ i) [e] := by intro e; simp [coEval]
  induction e with
  | c n => unfold coeffs; split <;> simp [coEval]
  | v j =>
    unfold coeffs; split
    · simp only; split
      · rename_i h; simp [coEval, eval, h]
      · exact aux _
    · exact aux _
  | neg a ih => unfold coeffs; split; · simp only [coNeg_eval, eval, ih]
                exact aux _
  | add a b ha hb => unfold coeffs; split; · simp only [coAdd_eval, eval, ha, hb]
                     exact aux _
  | sub a b ha hb => unfold coeffs; split; · simp only [coAdd_eval, coNeg_eval, eval, ha, hb, sub_eq_add_neg]
                     exact aux _
  | mul a b ha hb => unfold coeffs; split; · simp only [coMul_eval, eval, ha, hb]
                     exact aux _
  | pow a n ih => unfold coeffs; split; · simp only [coPow_eval, eval, ih]
                  exact aux _

theorem coEval_zero (l : List PExpr) (h : ∀ e ∈ l, e.eval ρ = 0) : coEval ρ t l = 0 := by
  induction l with
  | nil => rfl
  | cons a l ih => simp [coEval, h a (by simp), ih fun e he => h e (by simp [he])]

end

end PExpr
end Electrode
