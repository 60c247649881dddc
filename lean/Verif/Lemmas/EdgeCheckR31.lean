import Verif.Lemmas.EdgeIdent

/-
Polynomial identity between edge numerators that needs both `r1^2` and `r2^2`.  Evaluated by the kernel.
-/
namespace Electrode
namespace EdgeId
open PExpr

set_option maxRecDepth 100000
set_option Elab.async false

def id_3_1 : PExpr := ident 3 (num 3 1) 0 (num 4 1)

theorem len_3_1 : id_3_1.varsBelow 8 = true ∧ (partsR id_3_1).length = 20 := by decide +kernel

theorem zero_3_1 : (List.range 20).all (fun j => [1, 2, 5, 6, 9, 10, 13, 14].contains j || (partsR id_3_1).getD j (.c 0) == .c 0) = true := by
  decide +kernel

theorem chk_3_1_1 : checkR [34787, 3439, 379, 39] 348271 ((partsR id_3_1).getD 1 (.c 0)) = true := by decide +kernel

theorem chk_3_1_2 : checkR [34791, 3439, 379, 39] 348307 ((partsR id_3_1).getD 2 (.c 0)) = true := by decide +kernel

theorem chk_3_1_5 : checkR [28861, 3166, 349, 36] 260119 ((partsR id_3_1).getD 5 (.c 0)) = true := by decide +kernel

theorem chk_3_1_6 : checkR [28864, 3166, 349, 36] 260143 ((partsR id_3_1).getD 6 (.c 0)) = true := by decide +kernel

theorem chk_3_1_9 : checkR [22003, 2711, 299, 31] 176341 ((partsR id_3_1).getD 9 (.c 0)) = true := by decide +kernel

theorem chk_3_1_10 : checkR [22005, 2711, 299, 31] 176355 ((partsR id_3_1).getD 10 (.c 0)) = true := by decide +kernel

theorem chk_3_1_13 : checkR [14759, 2074, 229, 24] 78184 ((partsR id_3_1).getD 13 (.c 0)) = true := by decide +kernel

theorem chk_3_1_14 : checkR [10611, 2074, 229, 24] 74518 ((partsR id_3_1).getD 14 (.c 0)) = true := by decide +kernel

end EdgeId
end Electrode
