import Verif.Lemmas.EdgeIdent

/-
Polynomial identity between edge numerators that needs both `r1^2` and `r2^2`.  Evaluated by the kernel.
-/
namespace Electrode
namespace EdgeId
open PExpr

set_option maxRecDepth 100000
set_option Elab.async false

def id_4_1 : PExpr := ident 4 (num 4 1) 1 (num 5 1)

theorem len_4_1 : id_4_1.varsBelow 8 = true ∧ (partsR id_4_1).length = 24 := by decide +kernel

theorem zero_4_1 : (List.range 24).all (fun j => [1, 2, 5, 6, 9, 10, 13, 14, 17, 18].contains j || (partsR id_4_1).getD j (.c 0) == .c 0) = true := by
  decide +kernel

theorem chk_4_1_1 : checkR [66118, 5418, 538, 50] 798861 ((partsR id_4_1).getD 1 (.c 0)) = true := by decide +kernel

theorem chk_4_1_2 : checkR [66122, 5418, 538, 50] 798905 ((partsR id_4_1).getD 2 (.c 0)) = true := by decide +kernel

theorem chk_4_1_5 : checkR [56971, 5085, 505, 47] 631792 ((partsR id_4_1).getD 5 (.c 0)) = true := by decide +kernel

theorem chk_4_1_6 : checkR [56974, 5085, 505, 47] 631822 ((partsR id_4_1).getD 6 (.c 0)) = true := by decide +kernel

theorem chk_4_1_9 : checkR [47357, 4641, 461, 43] 478235 ((partsR id_4_1).getD 9 (.c 0)) = true := by decide +kernel

theorem chk_4_1_10 : checkR [47359, 4641, 461, 43] 478253 ((partsR id_4_1).getD 10 (.c 0)) = true := by decide +kernel

theorem chk_4_1_13 : checkR [37507, 4075, 405, 38] 341659 ((partsR id_4_1).getD 13 (.c 0)) = true := by decide +kernel

theorem chk_4_1_14 : checkR [37601, 4085, 406, 38] 342513 ((partsR id_4_1).getD 14 (.c 0)) = true := by decide +kernel

theorem chk_4_1_17 : checkR [27058, 3298, 328, 31] 148497 ((partsR id_4_1).getD 17 (.c 0)) = true := by decide +kernel

theorem chk_4_1_18 : checkR [16644, 3198, 318, 30] 136365 ((partsR id_4_1).getD 18 (.c 0)) = true := by decide +kernel

end EdgeId
end Electrode
