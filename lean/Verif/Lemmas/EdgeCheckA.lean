import Verif.Lemmas.EdgeIdent

/-
Polynomial identities between edge numerators of neighbouring orders.  Evaluated by the kernel.
-/
namespace Electrode
namespace EdgeId
open PExpr

set_option maxRecDepth 100000
set_option Elab.async false

theorem chk_1_0 : check .free [404, 202, 135, 68, 13, 13, 8, 8, 8] 581 (ident 1 (num 1 0) 0 (num 2 0)) = true := by decide +kernel

theorem chk_1_1 : check .free [448, 448, 203, 68, 13, 13, 8, 8, 8] 448 (ident 1 (num 1 0) 1 (num 2 1)) = true := by decide +kernel

theorem chk_1_2 : check .r2 [1584, 584, 334, 84, 16, 16, 9, 9, 9] 1584 (ident 1 (num 1 0) 2 (num 2 2)) = true := by decide +kernel

theorem chk_1_3 : check .free [357, 179, 136, 68, 13, 13, 8, 8, 8] 535 (ident 1 (num 1 1) 1 (num 2 3)) = true := by decide +kernel

theorem chk_1_4 : check .r2 [835, 251, 251, 84, 16, 16, 9, 9, 9] 1419 (ident 1 (num 1 1) 2 (num 2 4)) = true := by decide +kernel

theorem chk_2_0 : check .free [3956, 1978, 875, 292, 32, 32, 13, 13, 13] 5871 (ident 2 (num 2 0) 1 (num 3 0)) = true := by decide +kernel

theorem chk_2_1 : check .free [3932, 1966, 1311, 656, 71, 71, 26, 26, 13] 5757 (ident 2 (num 2 0) 2 (num 3 1)) = true := by decide +kernel

theorem chk_2_2 : check .free [3653, 1827, 1312, 656, 71, 71, 26, 26, 13] 5479 (ident 2 (num 2 3) 2 (num 3 2)) = true := by decide +kernel

theorem chk_2_3 : check .free [3675, 3675, 1170, 293, 32, 32, 13, 13, 13] 3675 (ident 2 (num 2 1) 1 (num 3 3)) = true := by decide +kernel

theorem chk_2_4 : check .r2 [6410, 2362, 1350, 338, 37, 37, 14, 14, 14] 6410 (ident 2 (num 2 2) 2 (num 3 4)) = true := by decide +kernel

theorem chk_2_5 : check .r2 [3375, 1013, 1013, 338, 37, 37, 14, 14, 14] 5737 (ident 2 (num 2 4) 2 (num 3 5)) = true := by decide +kernel

theorem chk_2_6 : check .free [4448, 4448, 1967, 656, 71, 71, 26, 26, 13] 4448 (ident 2 (num 2 1) 2 (num 3 6)) = true := by decide +kernel

theorem chk_3_2 : check .free [20960, 10480, 3302, 826, 63, 63, 18, 18, 18] 31315 (ident 3 (num 3 3) 0 (num 4 2)) = true := by decide +kernel

theorem chk_3_3 : check .r2 [23844, 6420, 3669, 918, 70, 70, 20, 20, 20] 41130 (ident 3 (num 3 4) 0 (num 4 3)) = true := by decide +kernel

theorem chk_3_4 : check .free [16961, 16961, 4128, 826, 63, 63, 18, 18, 18] 16961 (ident 3 (num 3 3) 1 (num 4 4)) = true := by decide +kernel

theorem chk_3_5 : check .r2 [50185, 10825, 5905, 985, 75, 75, 21, 21, 21] 50185 (ident 3 (num 3 4) 2 (num 4 5)) = true := by decide +kernel

theorem chk_3_6 : check .r2 [44759, 11649, 4588, 918, 70, 70, 20, 20, 20] 77869 (ident 3 (num 3 2) 1 (num 4 6)) = true := by decide +kernel

theorem chk_3_7 : check .r2 [23299, 6284, 3670, 918, 70, 70, 20, 20, 20] 40314 (ident 3 (num 3 5) 1 (num 4 7)) = true := by decide +kernel

theorem chk_3_8 : check .r2 [25585, 4921, 4921, 985, 75, 75, 21, 21, 21] 46249 (ident 3 (num 3 5) 2 (num 4 8)) = true := by decide +kernel

theorem chk_4_3 : check .free [76220, 38110, 9228, 1846, 108, 108, 24, 24, 24] 114115 (ident 4 (num 4 4) 0 (num 5 3)) = true := by decide +kernel

theorem chk_4_4 : check .r1 [89182, 44591, 8623, 2156, 113, 113, 25, 25, 25] 294668 (ident 4 (num 4 2) 2 (num 5 4)) = true := by decide +kernel

theorem chk_4_5 : check .r2 [95664, 24882, 9657, 1932, 113, 113, 25, 25, 25] 166219 (ident 4 (num 4 3) 1 (num 5 5)) = true := by decide +kernel

theorem chk_4_6 : check .free [35324, 17662, 11775, 5888, 343, 343, 71, 71, 24] 52301 (ident 4 (num 4 5) 0 (num 5 6)) = true := by decide +kernel

theorem chk_4_7 : check .free [80734, 80734, 19548, 3910, 228, 228, 48, 48, 24] 80734 (ident 4 (num 4 4) 2 (num 5 7)) = true := by decide +kernel

theorem chk_4_8 : check .free [53192, 53192, 16666, 4167, 243, 243, 51, 51, 26] 53192 (ident 4 (deriv 3 (num 3 6) 1) 2 (num 5 8)) = true := by decide +kernel

theorem chk_4_9 : check .r2 [94767, 24658, 9658, 1932, 113, 113, 25, 25, 25] 164876 (ident 4 (num 4 7) 1 (num 5 9)) = true := by decide +kernel

theorem chk_4_10 : check .free [33957, 16979, 11776, 5888, 343, 343, 71, 71, 24] 50935 (ident 4 (num 4 8) 1 (num 5 10)) = true := by decide +kernel

theorem chk_1_5 : check .free [406, 203, 136, 68, 13, 13, 8, 8, 8] 584 (ident 1 (num 1 2) 2 (.sub (.neg (num 2 0)) (num 2 3))) = true := by decide +kernel

end EdgeId
end Electrode
