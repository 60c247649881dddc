import Verif.Lemmas.EdgeIdent

/-
Polynomial identity between edge numerators that needs both `r1^2` and `r2^2`.  Evaluated by the kernel.
-/
namespace Electrode
namespace EdgeId
open PExpr

set_option maxRecDepth 100000
set_option Elab.async false

def id_4_0 : PExpr := ident 4 (num 4 2) 0 (num 5 0)

theorem len_4_0 : id_4_0.varsBelow 8 = true ∧ (partsR id_4_0).length = 24 := by decide +kernel

theorem zero_4_0 : (List.range 24).all (fun j => [5, 6, 9, 10, 13, 14, 17, 18, 21, 22].contains j || (partsR id_4_0).getD j (.c 0) == .c 0) = true := by
  decide +kernel

theorem chk_4_0_5 : checkR [26687, 2558, 360, 46] 269816 ((partsR id_4_0).getD 5 (.c 0)) = true := by decide +kernel

theorem chk_4_0_6 : checkR [26691, 2558, 360, 46] 269853 ((partsR id_4_0).getD 6 (.c 0)) = true := by decide +kernel

theorem chk_4_0_9 : checkR [22518, 2387, 336, 43] 205413 ((partsR id_4_0).getD 9 (.c 0)) = true := by decide +kernel

theorem chk_4_0_10 : checkR [22521, 2387, 336, 43] 205437 ((partsR id_4_0).getD 10 (.c 0)) = true := by decide +kernel

theorem chk_4_0_13 : checkR [17797, 2110, 297, 38] 144809 ((partsR id_4_0).getD 13 (.c 0)) = true := by decide +kernel

theorem chk_4_0_14 : checkR [17799, 2110, 297, 38] 144822 ((partsR id_4_0).getD 14 (.c 0)) = true := by decide +kernel

theorem chk_4_0_17 : checkR [13569, 1825, 257, 33] 97087 ((partsR id_4_0).getD 17 (.c 0)) = true := by decide +kernel

theorem chk_4_0_18 : checkR [13571, 1825, 257, 33] 97100 ((partsR id_4_0).getD 18 (.c 0)) = true := by decide +kernel

theorem chk_4_0_21 : checkR [6889, 1070, 150, 26] 30933 ((partsR id_4_0).getD 21 (.c 0)) = true := by decide +kernel

theorem chk_4_0_22 : checkR [4547, 1082, 202, 26] 28583 ((partsR id_4_0).getD 22 (.c 0)) = true := by decide +kernel

end EdgeId
end Electrode
