import Verif.Model.Xic
import Verif.Lemmas.Tensor
import Mathlib.Data.List.TakeWhile

/-
C66: parsing of `xic` files.
-/
namespace Electrode
namespace Spec

/-- white space -/
def Ws (l : List Char) : Prop := ∀ c ∈ l, c ∈ [' ', '\t', '\n', '\r', '\x0b', '\x0c', '\x1c', '\x1d', '\x1e', '\x1f']

/-- a word: at least one character, no white space -/
def Word (w : List Char) : Prop := w ≠ [] ∧ ∀ c ∈ w, c ∉ [' ', '\t', '\n', '\r', '\x0b', '\x0c', '\x1c', '\x1d', '\x1e', '\x1f']

/-- the line consists of these words, separated and surrounded by white space -/
inductive Words : List Char → List (List Char) → Prop
  | nil (s : List Char) : Ws s → Words s []
  | last (s w : List Char) : Ws s → Word w → Words (s ++ w) [w]
  | cons (s w rest : List Char) (c : Char) (ws : List (List Char)) : Ws s → Word w → Ws [c] → Words (c :: rest) ws →
    Words (s ++ (w ++ c :: rest)) (w :: ws)

/-- a line that is not blank and begins neither with `P` nor with a space -/
def OtherLine (l : List Char) : Prop := ∃ c t, l = c :: t ∧ c ≠ 'P' ∧ c ≠ ' ' ∧ ¬ Ws l

/-- the line ends with a semicolon, white space apart, after `body` -/
def Closes (l body : List Char) : Prop := ∃ s, Ws s ∧ l = body ++ ';' :: s

/-- first line of a record: `P`, then words on the same line after the first white space -/
def FirstLine (l : List Char) (row : List (List Char)) : Prop := ∃ t w, l = 'P' :: t ∧ Words l (w :: row)

/-- further line of a record: a space, then words; no semicolon at the end -/
def MidLine (l : List Char) (row : List (List Char)) : Prop := (∃ t, l = ' ' :: t) ∧ Words l row ∧ row ≠ [] ∧ ¬ ∃ body, Closes l body

/-- last line of a record: a space, then words, then a semicolon -/
def LastLine (l : List Char) (row : List (List Char)) : Prop := ∃ t, Closes l (' ' :: t) ∧ Words (' ' :: t) row

/-- the words are numbers of these values in units of 10 nm -/
def Values (toFloat : ToFloat) (ws : List (List Char)) (xs : List ℝ) : Prop :=
  List.Forall₂ (fun w x => ∃ y, toFloat w = some y ∧ x = y * 1e-8) ws xs

/-- lines between the first and the last line of a record, with the rows on them; other lines may be interspersed -/
inductive Body : List (List Char) → List (List (List Char)) → Prop
  | nil : Body [] []
  | mid (l : List Char) (row : List (List Char)) (ls : List (List Char)) (rows : List (List (List Char))) :
    MidLine l row → Body ls rows → Body (l :: ls) (row :: rows)
  | other (l : List Char) (ls : List (List Char)) (rows : List (List (List Char))) : OtherLine l → Body ls rows → Body (l :: ls) rows

/-- a text that consists of records and other lines, with the paths of the records; the points of a path have equally many
coordinates -/
inductive Parses (toFloat : ToFloat) : List (List Char) → List (List (List ℝ)) → Prop
  | nil : Parses toFloat [] []
  | other (l : List Char) (ls : List (List Char)) (ps : List (List (List ℝ))) : OtherLine l → Parses toFloat ls ps → Parses toFloat (l :: ls) ps
  | record (first last : List Char) (row0 rowN : List (List Char)) (body ls : List (List Char)) (rows : List (List (List Char)))
    (path : List (List ℝ)) (ps : List (List (List ℝ))) (d : Nat) :
    FirstLine first row0 → Body body rows → LastLine last rowN →
    List.Forall₂ (Values toFloat) (row0 :: rows ++ [rowN]) path → (∀ r ∈ path, r.length = d) →
    Parses toFloat ls ps → Parses toFloat (first :: body ++ last :: ls) (path :: ps)

end Spec
open Spec

theorem isWs_iff (c : Char) : isWs c = true ↔ c ∈ [' ', '\t', '\n', '\r', '\x0b', '\x0c', '\x1c', '\x1d', '\x1e', '\x1f'] := by
  simp [isWs, or_assoc]

theorem splitWsAux_ws (s rest : List Char) (h : Ws s) : splitWsAux (s ++ rest) [] = splitWsAux rest [] := by
  induction s with
  | nil => rfl
  | cons c t ih =>
    have hc := (isWs_iff c).2 (h c List.mem_cons_self)
    simp only [List.cons_append, splitWsAux, hc, if_true]
    exact ih fun c hc => h c (List.mem_cons_of_mem _ hc)

theorem splitWsAux_word (w rest : List Char) (h : ∀ c ∈ w, ¬ isWs c = true) : ∀ cur, splitWsAux (w ++ rest) cur = splitWsAux rest (w.reverse ++ cur) := by
  induction w with
  | nil => intro cur; rfl
  | cons c t ih =>
    intro cur
    simp only [List.cons_append, splitWsAux, if_neg (h c List.mem_cons_self), List.reverse_cons, List.append_assoc, List.cons_append, List.nil_append]
    exact ih (fun c hc => h c (List.mem_cons_of_mem _ hc)) (c :: cur)

theorem Word.notWs {w : List Char} (h : Word w) : ∀ c ∈ w, ¬ isWs c = true := fun c hc e => h.2 c hc ((isWs_iff c).1 e)

/-- `split` finds the words -/
theorem splitWs_of_words {l : List Char} {ws : List (List Char)} (h : Words l ws) : splitWs l = ws := by
  unfold splitWs
  induction h with
  | nil s hs => have := splitWsAux_ws s [] hs; simpa [splitWsAux] using this
  | last s w hs hw =>
    rw [splitWsAux_ws s w hs]
    have := splitWsAux_word w [] (Word.notWs hw) []
    rw [List.append_nil] at this
    rw [this]
    have hne : w.reverse ++ [] ≠ [] := by simpa using hw.1
    simp only [splitWsAux, if_neg hne]
    simp
  | cons s w rest c ws hs hw hc _ ih =>
    rw [splitWsAux_ws s _ hs, splitWsAux_word w _ (Word.notWs hw) []]
    have hc' := (isWs_iff c).2 (hc c List.mem_cons_self)
    have hne : w.reverse ++ [] ≠ [] := by simpa using hw.1
    simp only [splitWsAux, hc', if_true] at ih
    simp only [splitWsAux, hc', if_true, if_neg hne]
    rw [ih]
    simp

/-- every line consists of words -/
theorem words_of_splitWs (l : List Char) : Words l (splitWs l) := by
  suffices H : ∀ (n : Nat) (l : List Char), l.length ≤ n → Words l (splitWs l) from H l.length l le_rfl
  intro n
  induction n with
  | zero =>
    intro l hl
    obtain rfl : l = [] := List.length_eq_zero_iff.1 (by omega)
    exact .nil [] (by intro c hc; simp at hc)
  | succ n ih =>
    intro l hl
    have hsp := List.takeWhile_append_dropWhile (p := isWs) (l := l)
    have hs : Ws (l.takeWhile isWs) := fun c hc => (isWs_iff c).1 (List.mem_takeWhile_imp hc)
    rcases hd : l.dropWhile isWs with _ | ⟨c, t⟩
    · rw [hd, List.append_nil] at hsp
      rw [hsp] at hs
      have := Words.nil l hs
      rwa [splitWs_of_words this]
    · have hc : ¬ isWs c = true := by
        have := List.head?_dropWhile_not isWs l
        rw [hd] at this
        simpa using this
      have hw1 := List.takeWhile_append_dropWhile (p := fun c => !isWs c) (l := c :: t)
      have hword : Word ((c :: t).takeWhile fun c => !isWs c) := by
        refine ⟨by simp [List.takeWhile_cons, hc], fun d hd' hm => ?_⟩
        have := List.mem_takeWhile_imp hd'
        rw [(isWs_iff d).2 hm] at this
        simp at this
      rcases hr : (c :: t).dropWhile (fun c => !isWs c) with _ | ⟨e, r⟩
      · rw [hr, List.append_nil] at hw1
        have := Words.last (l.takeWhile isWs) (c :: t) hs (hw1 ▸ hword)
        rw [← hd, hsp] at this
        rwa [splitWs_of_words this]
      · have he : isWs e = true := by
          have := List.head?_dropWhile_not (fun c => !isWs c) (c :: t)
          rw [hr] at this
          simpa using this
        have hlen : (e :: r).length ≤ n := by
          have h1 : (c :: t).length = ((c :: t).takeWhile fun c => !isWs c).length + (e :: r).length := by
            rw [← hr, ← List.length_append, hw1]
          have h2 : 0 < ((c :: t).takeWhile fun c => !isWs c).length := List.length_pos_iff.2 hword.1
          have h3 : l.length = (l.takeWhile isWs).length + (c :: t).length := by
            rw [← hd, ← List.length_append, hsp]
          omega
        have hrest := ih _ hlen
        have := Words.cons (l.takeWhile isWs) _ r e _ hs hword (by intro d hd'; rw [List.mem_singleton] at hd'; rw [hd']; exact (isWs_iff e).1 he) hrest
        rw [← hr, hw1, ← hd, hsp] at this
        rwa [splitWs_of_words this]

theorem rstrip_split (l : List Char) : ∃ s, Ws s ∧ l = rstrip l ++ s ∧ ∀ c, (rstrip l).getLast? = some c → ¬ isWs c = true := by
  refine ⟨(l.reverse.takeWhile isWs).reverse, fun c hc => (isWs_iff c).1 (List.mem_takeWhile_imp (List.mem_reverse.1 hc)), ?_, ?_⟩
  · unfold rstrip
    rw [← List.reverse_append, List.takeWhile_append_dropWhile, List.reverse_reverse]
  · intro c hc
    unfold rstrip at hc
    rw [List.getLast?_reverse] at hc
    have := List.head?_dropWhile_not isWs l.reverse
    rw [hc] at this
    simpa using this

theorem rstrip_append_ws (l s : List Char) (hs : Ws s) : rstrip (l ++ s) = rstrip l := by
  unfold rstrip
  rw [List.reverse_append, List.dropWhile_append, List.dropWhile_eq_nil_iff.2 (fun c hc => (isWs_iff c).2 (hs c (List.mem_reverse.1 hc)))]
  simp

theorem rstrip_of_last (l : List Char) (c : Char) (hc : ¬ isWs c = true) : rstrip (l ++ [c]) = l ++ [c] := by
  unfold rstrip
  simp [List.dropWhile_cons, hc]

theorem ws_of_rstrip_nil (l : List Char) (h : rstrip l = []) : Ws l := by
  obtain ⟨s, hs, e, -⟩ := rstrip_split l
  rw [h, List.nil_append] at e
  exact e ▸ hs

theorem rstrip_head (c : Char) (t : List Char) (h : rstrip (c :: t) ≠ []) : ∃ t', rstrip (c :: t) = c :: t' := by
  obtain ⟨s, -, e, -⟩ := rstrip_split (c :: t)
  cases hr : rstrip (c :: t) with
  | nil => exact absurd hr h
  | cons d t' =>
    rw [hr, List.cons_append] at e
    exact ⟨t', by rw [(List.cons.inj e).1]⟩

theorem splitWs_append_ws (l s : List Char) (hs : Ws s) : splitWs (l ++ s) = splitWs l := by
  unfold splitWs
  suffices H : ∀ cur, splitWsAux (l ++ s) cur = splitWsAux l cur from H []
  induction l with
  | nil =>
    intro cur
    cases s with
    | nil => rfl
    | cons c t =>
      have hc := (isWs_iff c).2 (hs c List.mem_cons_self)
      have ht : splitWsAux t [] = [] := by
        have := splitWsAux_ws t [] fun c hc => hs c (List.mem_cons_of_mem _ hc)
        simpa [splitWsAux] using this
      simp only [List.nil_append, splitWsAux, hc, if_true, ht]
  | cons c t ih =>
    intro cur
    simp only [List.cons_append, splitWsAux, ih]

theorem splitWs_rstrip (l : List Char) : splitWs (rstrip l) = splitWs l := by
  obtain ⟨s, hs, e, -⟩ := rstrip_split l
  conv_rhs => rw [e]
  rw [splitWs_append_ws _ _ hs]

theorem closes_iff (l : List Char) : (∃ body, Closes l body) ↔ (rstrip l).getLast? = some ';' := by
  constructor
  · rintro ⟨b, s, hs, rfl⟩
    rw [show b ++ ';' :: s = (b ++ [';']) ++ s by simp, rstrip_append_ws _ _ hs, rstrip_of_last _ _ (by decide)]
    simp
  · intro h
    obtain ⟨s, hs, e, -⟩ := rstrip_split l
    obtain ⟨b, hb⟩ := List.getLast?_eq_some_iff.1 h
    exact ⟨b, s, hs, by rw [e, hb]; simp⟩

section
variable (py3 : Bool) (toFloat : ToFloat)

theorem xicLine_other (st) (l : List Char) (h : OtherLine l) : xicLine py3 toFloat st l = .ok st := by
  obtain ⟨c, t, rfl, h1, h2, h3⟩ := h
  obtain ⟨t', ht⟩ := rstrip_head c t (fun e => h3 (ws_of_rstrip_nil _ e))
  simp only [xicLine, ht, if_neg h1, if_neg h2]

theorem xicLine_first (st) (l : List Char) (row) (h : FirstLine l row) : xicLine py3 toFloat st l = .ok (some [row], st.2) := by
  obtain ⟨t, w, rfl, h⟩ := h
  have hne : rstrip ('P' :: t) ≠ [] := fun e => by
    have := ws_of_rstrip_nil _ e 'P' List.mem_cons_self
    revert this; decide
  obtain ⟨t', ht⟩ := rstrip_head _ _ hne
  have := splitWs_rstrip ('P' :: t)
  rw [splitWs_of_words h, ht] at this
  simp only [xicLine, ht, if_true, this, List.drop_one, List.tail_cons]

theorem xicLine_mid (p es) (l : List Char) (row) (h : MidLine l row) :
    xicLine py3 toFloat (some p, es) l = .ok (some (p ++ [row]), es) := by
  obtain ⟨⟨t, rfl⟩, hw, hrow, hcl⟩ := h
  have hs := splitWs_rstrip (' ' :: t)
  rw [splitWs_of_words hw] at hs
  have hne : rstrip (' ' :: t) ≠ [] := fun e => by
    rw [e] at hs
    exact hrow (by rw [← hs]; rfl)
  obtain ⟨t', ht⟩ := rstrip_head _ _ hne
  have hnl : ¬ (' ' :: t').getLast? = some ';' := by
    intro e
    apply hcl
    obtain ⟨s, hs', e', -⟩ := rstrip_split (' ' :: t)
    obtain ⟨b, hb⟩ := List.getLast?_eq_some_iff.1 e
    exact ⟨b, s, hs', by rw [e', ht, hb]; simp⟩
  rw [ht] at hs
  simp only [xicLine, ht, if_neg (show ¬ ' ' = 'P' by decide), if_true, if_neg hnl, hs]

theorem xicLine_last (p es) (l : List Char) (row) (h : LastLine l row) :
    xicLine py3 toFloat (some p, es) l = match recordArray py3 toFloat (p ++ [row]) with
      | .error e => .error e
      | .ok a => .ok (some (p ++ [row]), es ++ [a]) := by
  obtain ⟨t, ⟨s, hs, rfl⟩, hw⟩ := h
  have ht : rstrip (' ' :: t ++ ';' :: s) = ' ' :: (t ++ [';']) := by
    rw [show ' ' :: t ++ ';' :: s = (' ' :: t ++ [';']) ++ s by simp, rstrip_append_ws _ _ hs, rstrip_of_last _ _ (by decide)]
    rfl
  have hl : (' ' :: (t ++ [';'])).getLast? = some ';' := by rw [← List.cons_append, List.getLast?_concat]
  have hd : (' ' :: (t ++ [';'])).dropLast = ' ' :: t := by
    rw [← List.cons_append, List.dropLast_concat]
  simp only [xicLine, ht, if_neg (show ¬ ' ' = 'P' by decide), if_true, if_pos hl, hd, splitWs_of_words hw]
  cases recordArray py3 toFloat (p ++ [row]) <;> rfl

theorem xicLoop_append (a b : List (List Char)) : ∀ st, xicLoop py3 toFloat (a ++ b) st =
    match xicLoop py3 toFloat a st with
    | .error e => .error e
    | .ok st' => xicLoop py3 toFloat b st' := by
  induction a with
  | nil => intro st; rfl
  | cons l t ih =>
    intro st
    simp only [List.cons_append, xicLoop]
    cases xicLine py3 toFloat st l with
    | error e => rfl
    | ok st' => exact ih st'

theorem xicLoop_body (ls) (rows) (h : Body ls rows) : ∀ p es,
    xicLoop py3 toFloat ls (some p, es) = .ok (some (p ++ rows), es) := by
  induction h with
  | nil => intro p es; simp [xicLoop]
  | mid l row ls rows hl _ ih =>
    intro p es
    simp only [xicLoop, xicLine_mid py3 toFloat p es l row hl, ih, List.append_assoc, List.cons_append, List.nil_append]
  | other l ls rows hl _ ih =>
    intro p es
    simp only [xicLoop, xicLine_other py3 toFloat _ l hl, ih]

theorem floatRow_values (ws : List (List Char)) (xs : List ℝ) (h : Values toFloat ws xs) :
    ∃ ys, floatRow toFloat ws = .ok ys ∧ ys.map (· * 1e-8) = xs := by
  induction h with
  | nil => exact ⟨[], rfl, rfl⟩
  | cons h _ ih =>
    obtain ⟨y, hy, rfl⟩ := h
    obtain ⟨ys, h1, rfl⟩ := ih
    unfold floatRow at h1
    exact ⟨y :: ys, by simp only [floatRow, List.map_cons, pySeq, hy, h1], rfl⟩

theorem recordArray_values (p : List (List (List Char))) (path : List (List ℝ)) (d : Nat)
    (h : List.Forall₂ (Values toFloat) p path) (hd : ∀ r ∈ path, r.length = d) : recordArray false toFloat p = .ok path := by
  have : ∃ rows, pySeq (p.map (floatRow toFloat)) = .ok rows ∧ rows.map (fun r => r.map (· * (1e-8 : ℝ))) = path := by
    clear hd
    induction h with
    | nil => exact ⟨[], rfl, rfl⟩
    | cons h _ ih =>
      obtain ⟨ys, h1, rfl⟩ := floatRow_values toFloat _ _ h
      obtain ⟨rows, h2, rfl⟩ := ih
      exact ⟨ys :: rows, by simp only [List.map_cons, pySeq, h1, h2], rfl⟩
  obtain ⟨rows, h1, rfl⟩ := this
  have hl : ∀ r ∈ rows, r.length = d := fun r hr => by
    have := hd _ (List.mem_map.2 ⟨r, hr, rfl⟩)
    simpa using this
  have hall : (rows.all fun r => r.length == (rows.headD []).length) = true := by
    rw [List.all_eq_true]
    intro r hr
    have : (rows.headD []).length = d := by
      cases rows with
      | nil => simp at hr
      | cons a t => exact hl a List.mem_cons_self
    rw [hl r hr, this]
    simp
  simp only [recordArray, h1, hall, if_true, Bool.false_eq_true, if_false]

/-- C66 (Python 2): a text of records and other lines gives the paths of the records, in order; other lines have no effect. -/
theorem c66_parse_partial (text : List (List Char)) (paths : List (List (List ℝ))) (h : Parses toFloat text paths) :
    xicToList false toFloat text = .ok paths := by
  suffices H : ∀ st : Option (List (List (List Char))) × List (List (List ℝ)),
      ∃ p, xicLoop false toFloat text st = .ok (p, st.2 ++ paths) by
    obtain ⟨p, hp⟩ := H (none, [])
    simp only [xicToList, hp, List.nil_append]
  induction h with
  | nil => intro st; exact ⟨st.1, by simp [xicLoop]⟩
  | other l ls ps hl _ ih =>
    intro st
    obtain ⟨p, hp⟩ := ih st
    exact ⟨p, by simp only [xicLoop, xicLine_other false toFloat _ l hl, hp]⟩
  | record first last row0 rowN body ls rows path ps d hf hb hl hv hd _ ih =>
    intro st
    obtain ⟨p, hp⟩ := ih (some ([row0] ++ rows ++ [rowN]), st.2 ++ [path])
    refine ⟨p, ?_⟩
    have hrec := recordArray_values toFloat ([row0] ++ rows ++ [rowN]) path d hv hd
    simp only [List.cons_append, xicLoop, xicLine_first false toFloat _ first row0 hf]
    rw [xicLoop_append, xicLoop_body false toFloat body rows hb]
    simp only [xicLoop, xicLine_last false toFloat _ _ last rowN hl, hrec, hp]
    simp

/-- C66 fails with Python 3: no text gives a path ... -/
theorem c66_python3_no_path (text : List (List Char)) (paths : List (List (List ℝ))) (h : xicToList true toFloat text = .ok paths) :
    paths = [] := by
  have key : ∀ (ls : List (List Char)) st st', xicLoop true toFloat ls st = .ok st' → st'.2 = st.2 := by
    intro ls
    induction ls with
    | nil => intro st st' h; obtain rfl := Except.ok.inj h; rfl
    | cons l t ih =>
      intro st st' h
      simp only [xicLoop] at h
      split at h
      · cases h
      · rename_i st1 h1
        rw [ih _ _ h]
        unfold xicLine at h1
        split at h1
        · cases h1
        · split at h1
          · obtain rfl := Except.ok.inj h1; rfl
          · split at h1
            · split at h1
              · cases h1
              · split at h1
                · simp only [recordArray, if_true] at h1
                  cases h1
                · obtain rfl := Except.ok.inj h1; rfl
            · obtain rfl := Except.ok.inj h1; rfl
  unfold xicToList at h
  split at h
  · cases h
  · rename_i st hst
    obtain rfl := Except.ok.inj h
    exact key _ _ _ hst

/-- ... and every text with a record raises `TypeError`. -/
theorem c66_python3_fails (text : List (List Char)) (paths : List (List (List ℝ))) (h : Parses toFloat text paths) (hne : paths ≠ []) :
    xicToList true toFloat text = .error .typeError := by
  suffices H : ∀ st : Option (List (List (List Char))) × List (List (List ℝ)), xicLoop true toFloat text st = .error .typeError by
    simp only [xicToList, H]
  induction h with
  | nil => exact absurd rfl hne
  | other l ls ps hl _ ih =>
    intro st
    simp only [xicLoop, xicLine_other true toFloat _ l hl, ih hne]
  | record first last row0 rowN body ls rows path ps d hf hb hl hv hd _ _ =>
    intro st
    simp only [List.cons_append, xicLoop, xicLine_first true toFloat _ first row0 hf]
    rw [xicLoop_append, xicLoop_body true toFloat body rows hb]
    simp only [xicLoop, xicLine_last true toFloat _ _ last rowN hl, recordArray, if_true]

open Classical in
/-- C66: for every text at all, there are as many paths as lines that begin with a space and end with a semicolon; in particular a
record that is written on its first line only gives nothing. -/
theorem c66_count (text : List (List Char)) (paths : List (List (List ℝ))) (h : xicToList py3 toFloat text = .ok paths) :
    paths.length = text.countP fun l => decide (l.head? = some ' ' ∧ ∃ body, Closes l body) := by
  have key : ∀ (ls : List (List Char)) st st', xicLoop py3 toFloat ls st = .ok st' →
      st'.2.length = st.2.length + ls.countP fun l => decide (l.head? = some ' ' ∧ ∃ body, Closes l body) := by
    intro ls
    induction ls with
    | nil => intro st st' h; obtain rfl := Except.ok.inj h; rfl
    | cons l t ih =>
      intro st st' h
      simp only [xicLoop] at h
      split at h
      · cases h
      · rename_i st1 h1
        rw [ih _ _ h, List.countP_cons, ← add_assoc, add_right_comm]
        congr 1
        unfold xicLine at h1
        split at h1
        · cases h1
        · rename_i c t' hr
          have hh : l.head? = some c := by
            obtain ⟨s, -, e, -⟩ := rstrip_split l
            rw [e, hr]; rfl
          split at h1
          · rename_i hc
            obtain rfl := Except.ok.inj h1
            simp [hh, hc]
          · split at h1
            · rename_i hc
              split at h1
              · cases h1
              · split at h1
                · rename_i hlast
                  simp only at h1
                  split at h1
                  · cases h1
                  · obtain rfl := Except.ok.inj h1
                    have : (∃ body, Closes l body) := (closes_iff l).2 (by rw [hr]; exact hlast)
                    simp [hh, hc, this]
                · rename_i hlast
                  obtain rfl := Except.ok.inj h1
                  have : ¬ (∃ body, Closes l body) := fun h => hlast (by have := (closes_iff l).1 h; rwa [hr] at this)
                  simp [this]
            · rename_i hc
              obtain rfl := Except.ok.inj h1
              simp [hh, hc]
  unfold xicToList at h
  split at h
  · cases h
  · rename_i st hst
    obtain rfl := Except.ok.inj h
    simpa using key _ _ _ hst

/-- C66 fails for blank lines: the first character of nothing is looked at -/
theorem c66_blank_line (before after : List (List Char)) (l : List Char) (hl : Ws l) (hb : ∀ b ∈ before, OtherLine b) :
    xicToList py3 toFloat (before ++ l :: after) = .error .indexError := by
  have : ∀ st, xicLoop py3 toFloat (before ++ l :: after) st = .error .indexError := by
    intro st
    induction before with
    | nil =>
      have hr : rstrip l = [] := by
        unfold rstrip
        rw [List.dropWhile_eq_nil_iff.2 (fun c hc => (isWs_iff c).2 (hl c (List.mem_reverse.1 hc)))]
        rfl
      simp only [List.nil_append, xicLoop, xicLine, hr]
    | cons b t ih =>
      simp only [List.cons_append, xicLoop, xicLine_other py3 toFloat _ b (hb b List.mem_cons_self)]
      exact ih fun b hb' => hb b (List.mem_cons_of_mem _ hb')
  simp only [xicToList, this]

/-- C66: a continuation line before every record raises -/
theorem c66_continuation_first (before after : List (List Char)) (t : List Char) (ht : ¬ Ws t) (hb : ∀ b ∈ before, OtherLine b) :
    xicToList py3 toFloat (before ++ (' ' :: t) :: after) = .error .unboundLocalError := by
  have : ∀ es, xicLoop py3 toFloat (before ++ (' ' :: t) :: after) (none, es) = .error .unboundLocalError := by
    intro es
    induction before with
    | nil =>
      have hne : rstrip (' ' :: t) ≠ [] := fun e => ht fun c hc => ws_of_rstrip_nil _ e c (List.mem_cons_of_mem _ hc)
      obtain ⟨t', ht'⟩ := rstrip_head _ _ hne
      simp only [List.nil_append, xicLoop, xicLine, ht', if_neg (show ¬ ' ' = 'P' by decide), if_true]
    | cons b t ih =>
      simp only [List.cons_append, xicLoop, xicLine_other py3 toFloat _ b (hb b List.mem_cons_self)]
      exact ih fun b hb' => hb b (List.mem_cons_of_mem _ hb')
  simp only [xicToList, this]

theorem xicLoop_parses (text : List (List Char)) (paths : List (List (List ℝ))) (h : Parses toFloat text paths) :
    ∀ st : Option (List (List (List Char))) × List (List (List ℝ)), ∃ st', xicLoop false toFloat text st = .ok st' := by
  induction h with
  | nil => exact fun st => ⟨st, rfl⟩
  | other l ls ps hl _ ih =>
    intro st
    obtain ⟨p, hp⟩ := ih st
    exact ⟨p, by simp only [xicLoop, xicLine_other false toFloat _ l hl, hp]⟩
  | record first last row0 rowN body ls rows path ps d hf hb hl hv hd _ ih =>
    intro st
    obtain ⟨p, hp⟩ := ih (some ([row0] ++ rows ++ [rowN]), st.2 ++ [path])
    refine ⟨p, ?_⟩
    have hrec := recordArray_values toFloat ([row0] ++ rows ++ [rowN]) path d hv hd
    simp only [List.cons_append, xicLoop, xicLine_first false toFloat _ first row0 hf]
    rw [xicLoop_append, xicLoop_body false toFloat body rows hb]
    simp only [xicLoop, xicLine_last false toFloat _ _ last rowN hl, hrec, hp]

/-- the error of a record is the error of the text -/
theorem xic_record_error (before after : List (List Char)) (paths) (h : Parses toFloat before paths) (first last : List Char) (row0 rowN : List (List Char))
    (body : List (List Char)) (rows : List (List (List Char))) (hf : FirstLine first row0) (hb : Body body rows) (hl : LastLine last rowN) (e : PyErr)
    (he : recordArray false toFloat (row0 :: rows ++ [rowN]) = .error e) : xicToList false toFloat (before ++ (first :: body ++ last :: after)) = .error e := by
  obtain ⟨st, hst⟩ := xicLoop_parses toFloat before paths h (none, [])
  have : xicLoop false toFloat (first :: body ++ last :: after) st = .error e := by
    simp only [List.cons_append, xicLoop, xicLine_first false toFloat _ first row0 hf]
    rw [xicLoop_append, xicLoop_body false toFloat body rows hb]
    rw [show row0 :: rows ++ [rowN] = [row0] ++ rows ++ [rowN] from rfl] at he
    simp only [xicLoop, xicLine_last false toFloat _ _ last rowN hl, he]
  unfold xicToList
  rw [xicLoop_append, hst]
  simp only [this]

theorem floatRow_error (ws : List (List Char)) (e : PyErr) (h : floatRow toFloat ws = .error e) : e = .valueError := by
  unfold floatRow at h
  induction ws with
  | nil => cases h
  | cons w t ih =>
    simp only [List.map_cons, pySeq] at h
    cases hw : toFloat w with
    | none => rw [hw] at h; injection h with h; exact h.symm
    | some y =>
      rw [hw] at h
      simp only at h
      split at h
      · next e' he => injection h with h; exact ih (h ▸ he)
      · cases h

/-- C66 (Python 2): a word in a record that is no number raises `ValueError`. -/
theorem c66_bad_number (before after : List (List Char)) (paths) (h : Parses toFloat before paths) (first last : List Char) (row0 rowN : List (List Char))
    (body : List (List Char)) (rows : List (List (List Char))) (hf : FirstLine first row0) (hb : Body body rows) (hl : LastLine last rowN)
    (row : List (List Char)) (hr : row ∈ row0 :: rows ++ [rowN]) (w : List Char) (hw : w ∈ row) (hn : toFloat w = none) :
    xicToList false toFloat (before ++ (first :: body ++ last :: after)) = .error .valueError := by
  refine xic_record_error toFloat before after paths h first last row0 rowN body rows hf hb hl _ ?_
  have h1 : floatRow toFloat row = .error .valueError := by
    unfold floatRow
    refine pySeq_map_error row _ .valueError w hw (by rw [hn]) fun b _ e' he => ?_
    cases hb : toFloat b with
    | none => rw [hb] at he; injection he with he; exact he.symm
    | some y => rw [hb] at he; cases he
  have h2 := pySeq_map_error _ (floatRow toFloat) .valueError row hr h1 fun b _ e' he => floatRow_error toFloat b e' he
  simp only [recordArray, h2, Bool.false_eq_true, if_false]

/-- C66 (Python 2): so do points with different numbers of coordinates, with `TypeError`. -/
theorem c66_ragged (before after : List (List Char)) (paths) (h : Parses toFloat before paths) (first last : List Char) (row0 rowN : List (List Char))
    (body : List (List Char)) (rows : List (List (List Char))) (hf : FirstLine first row0) (hb : Body body rows) (hl : LastLine last rowN)
    (path : List (List ℝ)) (hv : List.Forall₂ (Values toFloat) (row0 :: rows ++ [rowN]) path) (r : List ℝ) (hr : r ∈ path) (r' : List ℝ) (hr' : r' ∈ path)
    (hne : r.length ≠ r'.length) :
    xicToList false toFloat (before ++ (first :: body ++ last :: after)) = .error .typeError := by
  refine xic_record_error toFloat before after paths h first last row0 rowN body rows hf hb hl _ ?_
  have : ∀ p path, List.Forall₂ (Values toFloat) p path → ∃ rows, pySeq (p.map (floatRow toFloat)) = .ok rows ∧ rows.map (fun r => r.map (· * (1e-8 : ℝ))) = path := by
    intro p path hv
    induction hv with
    | nil => exact ⟨[], rfl, rfl⟩
    | cons h _ ih =>
      obtain ⟨ys, h1, rfl⟩ := floatRow_values toFloat _ _ h
      obtain ⟨rows, h2, rfl⟩ := ih
      exact ⟨ys :: rows, by simp only [List.map_cons, pySeq, h1, h2], rfl⟩
  obtain ⟨rows', h1, rfl⟩ := this _ _ hv
  have hall : ¬ (rows'.all fun r => r.length == (rows'.headD []).length) = true := by
    rw [List.all_eq_true]
    intro hall
    obtain ⟨s, hs, rfl⟩ := List.mem_map.1 hr
    obtain ⟨s', hs', rfl⟩ := List.mem_map.1 hr'
    refine hne ?_
    rw [List.length_map, List.length_map, eq_of_beq (hall s hs), eq_of_beq (hall s' hs')]
  simp only [recordArray, h1, Bool.false_eq_true, if_false]
  rw [if_neg hall]

end

/-- a converter that knows the one-digit numbers -/
noncomputable def exFloat : ToFloat := fun w => match w with
  | [c] => if c.isDigit then some ((c.toNat - 48 : Nat) : ℝ) else none
  | _ => none

/-- a file with a comment, a triangle and an end mark -/
def exXic : List (List Char) := ["(comment)\n".toList, "P 0 0\n".toList, " 2 0\n".toList, " 0 2;\n".toList, "E\n".toList]

theorem exXic_parses : Parses exFloat exXic [[[0, 0], [2 * 1e-8, 0], [0, 2 * 1e-8]]] := by
  have w1 : Words " 2 0\n".toList ["2".toList, "0".toList] := words_of_splitWs " 2 0\n".toList
  have w2 : Words " 0 2".toList ["0".toList, "2".toList] := words_of_splitWs " 0 2".toList
  have w0 : Words "P 0 0\n".toList ["P".toList, "0".toList, "0".toList] := words_of_splitWs "P 0 0\n".toList
  have v : ∀ c : Char, c.isDigit = true → ∀ x : ℝ, x = ((c.toNat - 48 : Nat) : ℝ) * 1e-8 → ∃ y, exFloat [c] = some y ∧ x = y * 1e-8 :=
    fun c hc x hx => ⟨_, by simp only [exFloat, hc, if_true], hx⟩
  have v0 : ∃ y, exFloat "0".toList = some y ∧ (0 : ℝ) = y * 1e-8 := v '0' (by decide) 0 (by simp)
  have v2 : ∃ y, exFloat "2".toList = some y ∧ (2 * 1e-8 : ℝ) = y * 1e-8 := v '2' (by decide) _ (by rw [show '2'.toNat - 48 = 2 from rfl]; norm_num)
  refine Parses.other _ _ _ ⟨'(', "comment)\n".toList, rfl, by decide, by decide, ?_⟩ ?_
  · intro h; have := h 'c' (by decide); revert this; decide
  refine Parses.record "P 0 0\n".toList " 0 2;\n".toList ["0".toList, "0".toList] ["0".toList, "2".toList] [" 2 0\n".toList] ["E\n".toList]
    [["2".toList, "0".toList]] _ [] 2 ⟨" 0 0\n".toList, "P".toList, rfl, w0⟩ ?_ ?_ ?_ ?_ ?_
  · refine .mid _ _ _ _ ⟨⟨"2 0\n".toList, rfl⟩, w1, by decide, ?_⟩ .nil
    rintro ⟨b, s, -, e⟩
    have : ';' ∈ " 2 0\n".toList := by rw [e]; simp
    revert this; decide
  · exact ⟨"0 2".toList, ⟨"\n".toList, by intro c hc; revert c hc; decide, rfl⟩, w2⟩
  · exact .cons (.cons v0 (.cons v0 .nil)) (.cons (.cons v2 (.cons v0 .nil)) (.cons (.cons v0 (.cons v2 .nil)) .nil))
  · simp
  · refine Parses.other _ _ _ ⟨'E', "\n".toList, rfl, by decide, by decide, ?_⟩ .nil
    intro h; have := h 'E' (by decide); revert this; decide

example : xicToList false exFloat exXic = .ok [[[0, 0], [2 * 1e-8, 0], [0, 2 * 1e-8]]] ∧ xicToList true exFloat exXic = .error .typeError :=
  ⟨c66_parse_partial _ _ _ exXic_parses, c66_python3_fails _ _ _ exXic_parses (by simp)⟩

/-- a blank line, and a line that continues nothing -/
example : xicToList false exFloat ["E".toList, " \n".toList] = .error .indexError ∧
    xicToList false exFloat ["E".toList, " 1 2\n".toList] = .error .unboundLocalError := by
  have ho : ∀ b ∈ ["E".toList], OtherLine b := by
    intro b hb
    rw [List.mem_singleton] at hb
    subst hb
    refine ⟨'E', [], rfl, by decide, by decide, fun h => ?_⟩
    have := h 'E' (by decide); revert this; decide
  constructor
  · exact c66_blank_line false exFloat ["E".toList] [] _ (by intro c hc; revert c hc; decide) ho
  · refine c66_continuation_first false exFloat ["E".toList] [] "1 2\n".toList (fun h => ?_) ho
    have := h '1' (by decide); revert this; decide

/-- a word that is no number, and points with different numbers of coordinates -/
example : xicToList false exFloat ["P 0 0\n".toList, " 0 x;\n".toList] = .error .valueError ∧
    xicToList false exFloat ["P 0 0\n".toList, " 2;\n".toList] = .error .typeError := by
  have w0 : Words "P 0 0\n".toList ["P".toList, "0".toList, "0".toList] := words_of_splitWs "P 0 0\n".toList
  have w1 : Words " 0 x".toList ["0".toList, "x".toList] := words_of_splitWs " 0 x".toList
  have w2 : Words " 2".toList ["2".toList] := words_of_splitWs " 2".toList
  have hf : FirstLine "P 0 0\n".toList ["0".toList, "0".toList] := ⟨" 0 0\n".toList, "P".toList, rfl, w0⟩
  have v : ∀ c : Char, c.isDigit = true → ∃ y, exFloat [c] = some y ∧ ((c.toNat - 48 : Nat) : ℝ) * 1e-8 = y * 1e-8 :=
    fun c hc => ⟨_, by simp only [exFloat, hc, if_true], rfl⟩
  constructor
  · exact c66_bad_number exFloat [] [] [] .nil "P 0 0\n".toList " 0 x;\n".toList _ ["0".toList, "x".toList] [] [] hf .nil
      ⟨"0 x".toList, ⟨"\n".toList, by intro c hc; revert c hc; decide, rfl⟩, w1⟩ _ (List.mem_cons_of_mem _ List.mem_cons_self) "x".toList (by decide) (by simp [exFloat])
  · exact c66_ragged exFloat [] [] [] .nil "P 0 0\n".toList " 2;\n".toList _ ["2".toList] [] [] hf .nil
      ⟨"2".toList, ⟨"\n".toList, by intro c hc; revert c hc; decide, rfl⟩, w2⟩ _
      (.cons (.cons (v '0' (by decide)) (.cons (v '0' (by decide)) .nil)) (.cons (.cons (v '2' (by decide)) .nil) .nil)) _ List.mem_cons_self _
      (List.mem_cons_of_mem _ List.mem_cons_self) (by simp)

end Electrode
