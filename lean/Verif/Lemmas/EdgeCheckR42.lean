import Verif.Lemmas.EdgeIdent

/-
Polynomial identity between edge numerators that needs both `r1^2` and `r2^2`.  Evaluated by the kernel.
-/
namespace Electrode
namespace EdgeId
open PExpr

set_option maxRecDepth 100000
set_option Elab.async false

def id_4_2 : PExpr := ident 4 (num 4 3) 0 (num 5 2)

theorem len_4_2 : id_4_2.varsBelow 8 = true ∧ (partsR id_4_2).length = 24 := by decide +kernel

theorem zero_4_2 : (List.range 24).all (fun j => [5, 6, 9, 10, 13, 14, 17, 18, 21, 22].contains j || (partsR id_4_2).getD j (.c 0) == .c 0) = true := by
  decide +kernel

theorem chk_4_2_5 : checkR [52692, 4349, 479, 49] 632812 ((partsR id_4_2).getD 5 (.c 0)) = true := by decide +kernel

theorem chk_4_2_6 : checkR [52696, 4349, 479, 49] 632856 ((partsR id_4_2).getD 6 (.c 0)) = true := by decide +kernel

theorem chk_4_2_9 : checkR [45310, 4076, 449, 46] 498887 ((partsR id_4_2).getD 9 (.c 0)) = true := by decide +kernel

theorem chk_4_2_10 : checkR [45313, 4076, 449, 46] 498917 ((partsR id_4_2).getD 10 (.c 0)) = true := by decide +kernel

theorem chk_4_2_13 : checkR [36633, 3621, 399, 41] 366755 ((partsR id_4_2).getD 13 (.c 0)) = true := by decide +kernel

theorem chk_4_2_14 : checkR [36635, 3621, 399, 41] 366773 ((partsR id_4_2).getD 14 (.c 0)) = true := by decide +kernel

theorem chk_4_2_17 : checkR [28864, 3166, 349, 36] 260148 ((partsR id_4_2).getD 17 (.c 0)) = true := by decide +kernel

theorem chk_4_2_18 : checkR [28866, 3166, 349, 36] 260164 ((partsR id_4_2).getD 18 (.c 0)) = true := by decide +kernel

theorem chk_4_2_21 : checkR [20528, 2529, 279, 29] 110523 ((partsR id_4_2).getD 21 (.c 0)) = true := by decide +kernel

theorem chk_4_2_22 : checkR [12941, 2529, 279, 29] 103824 ((partsR id_4_2).getD 22 (.c 0)) = true := by decide +kernel

end EdgeId
end Electrode
