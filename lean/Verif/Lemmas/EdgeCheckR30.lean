import Verif.Lemmas.EdgeIdent

/-
Polynomial identity between edge numerators that needs both `r1^2` and `r2^2`.  Evaluated by the kernel.
-/
namespace Electrode
namespace EdgeId
open PExpr

set_option maxRecDepth 100000
set_option Elab.async false

def id_3_0 : PExpr := ident 3 (num 3 0) 0 (num 4 0)

theorem len_3_0 : id_3_0.varsBelow 8 = true ∧ (partsR id_3_0).length = 20 := by decide +kernel

theorem zero_3_0 : (List.range 20).all (fun j => [5, 6, 9, 10, 13, 14, 17, 18].contains j || (partsR id_3_0).getD j (.c 0) == .c 0) = true := by
  decide +kernel

theorem chk_3_0_5 : checkR [12143, 1456, 238, 35] 97440 ((partsR id_3_0).getD 5 (.c 0)) = true := by decide +kernel

theorem chk_3_0_6 : checkR [12147, 1456, 238, 35] 97468 ((partsR id_3_0).getD 6 (.c 0)) = true := by decide +kernel

theorem chk_3_0_9 : checkR [9742, 1327, 217, 32] 68465 ((partsR id_3_0).getD 9 (.c 0)) = true := by decide +kernel

theorem chk_3_0_10 : checkR [9745, 1327, 217, 32] 68483 ((partsR id_3_0).getD 10 (.c 0)) = true := by decide +kernel

theorem chk_3_0_13 : checkR [7053, 1112, 182, 27] 42546 ((partsR id_3_0).getD 13 (.c 0)) = true := by decide +kernel

theorem chk_3_0_14 : checkR [7055, 1112, 182, 27] 42556 ((partsR id_3_0).getD 14 (.c 0)) = true := by decide +kernel

theorem chk_3_0_17 : checkR [3731, 698, 114, 20] 12830 ((partsR id_3_0).getD 17 (.c 0)) = true := by decide +kernel

theorem chk_3_0_18 : checkR [2279, 704, 134, 20] 11562 ((partsR id_3_0).getD 18 (.c 0)) = true := by decide +kernel

end EdgeId
end Electrode
