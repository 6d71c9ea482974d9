import Verif.Proofs.PowMod
import Mathlib.Tactic.NormNum.Prime

/-! Primality certificates, written by tools/primes.py. -/
namespace Trng.PowMod

theorem prime_2 : Nat.Prime 2 := by norm_num

theorem prime_3 : Nat.Prime 3 := by norm_num

theorem prime_5 : Nat.Prime 5 := by norm_num

theorem prime_7 : Nat.Prime 7 := by norm_num

theorem prime_11 : Nat.Prime 11 := by norm_num

theorem prime_31 : Nat.Prime 31 := by norm_num

theorem prime_61 : Nat.Prime 61 := by norm_num

theorem prime_151 : Nat.Prime 151 := by norm_num

theorem prime_271 : Nat.Prime 271 := by norm_num

theorem prime_331 : Nat.Prime 331 := by norm_num

theorem prime_733 : Nat.Prime 733 := by norm_num

theorem prime_1709 : Nat.Prime 1709 := by norm_num

theorem prime_2147483647 : Nat.Prime 2147483647 := by
  refine pratt 2147483647 7 [(2, 1), (3, 2), (7, 1), (11, 1), (31, 1), (151, 1), (331, 1)] ?_ (by decide +kernel)
  simp only [List.forall_mem_cons, List.not_mem_nil, false_imp_iff, implies_true, and_true]
  exact ⟨prime_2, prime_3, prime_7, prime_11, prime_31, prime_151, prime_331⟩

theorem prime_17 : Nat.Prime 17 := by norm_num

theorem prime_41 : Nat.Prime 41 := by norm_num

theorem prime_27509 : Nat.Prime 27509 := by norm_num

theorem prime_1073731289 : Nat.Prime 1073731289 := by
  refine pratt 1073731289 3 [(2, 3), (7, 1), (17, 1), (41, 1), (27509, 1)] ?_ (by decide +kernel)
  simp only [List.forall_mem_cons, List.not_mem_nil, false_imp_iff, implies_true, and_true]
  exact ⟨prime_2, prime_7, prime_17, prime_41, prime_27509⟩

theorem prime_2147462579 : Nat.Prime 2147462579 := by
  refine pratt 2147462579 2 [(2, 1), (1073731289, 1)] ?_ (by decide +kernel)
  simp only [List.forall_mem_cons, List.not_mem_nil, false_imp_iff, implies_true, and_true]
  exact ⟨prime_2, prime_1073731289⟩

theorem prime_13 : Nat.Prime 13 := by norm_num

theorem prime_67 : Nat.Prime 67 := by norm_num

theorem prime_44027 : Nat.Prime 44027 := by norm_num

theorem prime_41297327 : Nat.Prime 41297327 := by
  refine pratt 41297327 5 [(2, 1), (7, 1), (67, 1), (44027, 1)] ?_ (by decide +kernel)
  simp only [List.forall_mem_cons, List.not_mem_nil, false_imp_iff, implies_true, and_true]
  exact ⟨prime_2, prime_7, prime_67, prime_44027⟩

theorem prime_1073730503 : Nat.Prime 1073730503 := by
  refine pratt 1073730503 5 [(2, 1), (13, 1), (41297327, 1)] ?_ (by decide +kernel)
  simp only [List.forall_mem_cons, List.not_mem_nil, false_imp_iff, implies_true, and_true]
  exact ⟨prime_2, prime_13, prime_41297327⟩

theorem prime_2147461007 : Nat.Prime 2147461007 := by
  refine pratt 2147461007 5 [(2, 1), (1073730503, 1)] ?_ (by decide +kernel)
  simp only [List.forall_mem_cons, List.not_mem_nil, false_imp_iff, implies_true, and_true]
  exact ⟨prime_2, prime_1073730503⟩

theorem prime_647 : Nat.Prime 647 := by norm_num

theorem prime_129401 : Nat.Prime 129401 := by
  refine pratt 129401 3 [(2, 3), (5, 2), (647, 1)] ?_ (by decide +kernel)
  simp only [List.forall_mem_cons, List.not_mem_nil, false_imp_iff, implies_true, and_true]
  exact ⟨prime_2, prime_5, prime_647⟩

theorem prime_258803 : Nat.Prime 258803 := by
  refine pratt 258803 2 [(2, 1), (129401, 1)] ?_ (by decide +kernel)
  simp only [List.forall_mem_cons, List.not_mem_nil, false_imp_iff, implies_true, and_true]
  exact ⟨prime_2, prime_129401⟩

theorem prime_529510939 : Nat.Prime 529510939 := by
  refine pratt 529510939 3 [(2, 1), (3, 1), (11, 1), (31, 1), (258803, 1)] ?_ (by decide +kernel)
  simp only [List.forall_mem_cons, List.not_mem_nil, false_imp_iff, implies_true, and_true]
  exact ⟨prime_2, prime_3, prime_11, prime_31, prime_258803⟩

theorem prime_19 : Nat.Prime 19 := by norm_num

theorem prime_1867 : Nat.Prime 1867 := by norm_num

theorem prime_2903110321 : Nat.Prime 2903110321 := by
  refine pratt 2903110321 7 [(2, 4), (3, 1), (5, 1), (11, 1), (19, 1), (31, 1), (1867, 1)] ?_ (by decide +kernel)
  simp only [List.forall_mem_cons, List.not_mem_nil, false_imp_iff, implies_true, and_true]
  exact ⟨prime_2, prime_3, prime_5, prime_11, prime_19, prime_31, prime_1867⟩

theorem prime_12973 : Nat.Prime 12973 := by norm_num

theorem prime_38767 : Nat.Prime 38767 := by norm_num

theorem prime_368140581013 : Nat.Prime 368140581013 := by
  refine pratt 368140581013 6 [(2, 2), (3, 1), (61, 1), (12973, 1), (38767, 1)] ?_ (by decide +kernel)
  simp only [List.forall_mem_cons, List.not_mem_nil, false_imp_iff, implies_true, and_true]
  exact ⟨prime_2, prime_3, prime_61, prime_12973, prime_38767⟩

theorem prime_98327 : Nat.Prime 98327 := by norm_num

theorem prime_2556503 : Nat.Prime 2556503 := by
  refine pratt 2556503 5 [(2, 1), (13, 1), (98327, 1)] ?_ (by decide +kernel)
  simp only [List.forall_mem_cons, List.not_mem_nil, false_imp_iff, implies_true, and_true]
  exact ⟨prime_2, prime_13, prime_98327⟩

theorem prime_35791043 : Nat.Prime 35791043 := by
  refine pratt 35791043 2 [(2, 1), (7, 1), (2556503, 1)] ?_ (by decide +kernel)
  simp only [List.forall_mem_cons, List.not_mem_nil, false_imp_iff, implies_true, and_true]
  exact ⟨prime_2, prime_7, prime_2556503⟩

theorem prime_4611595530352793821 : Nat.Prime 4611595530352793821 := by
  refine pratt 4611595530352793821 7 [(2, 2), (3, 1), (5, 1), (35791043, 1), (2147462579, 1)] ?_ (by decide +kernel)
  simp only [List.forall_mem_cons, List.not_mem_nil, false_imp_iff, implies_true, and_true]
  exact ⟨prime_2, prime_3, prime_5, prime_35791043, prime_2147462579⟩

theorem prime_787 : Nat.Prime 787 := by norm_num

theorem prime_1087 : Nat.Prime 1087 := by norm_num

theorem prime_5413 : Nat.Prime 5413 := by norm_num

theorem prime_349 : Nat.Prime 349 := by norm_num

theorem prime_108191 : Nat.Prime 108191 := by
  refine pratt 108191 13 [(2, 1), (5, 1), (31, 1), (349, 1)] ?_ (by decide +kernel)
  simp only [List.forall_mem_cons, List.not_mem_nil, false_imp_iff, implies_true, and_true]
  exact ⟨prime_2, prime_5, prime_31, prime_349⟩

theorem prime_1569635029 : Nat.Prime 1569635029 := by
  refine pratt 1569635029 6 [(2, 2), (3, 2), (13, 1), (31, 1), (108191, 1)] ?_ (by decide +kernel)
  simp only [List.forall_mem_cons, List.not_mem_nil, false_imp_iff, implies_true, and_true]
  exact ⟨prime_2, prime_3, prime_13, prime_31, prime_108191⟩

theorem prime_193 : Nat.Prime 193 := by norm_num

theorem prime_3313 : Nat.Prime 3313 := by norm_num

theorem prime_134275891 : Nat.Prime 134275891 := by
  refine pratt 134275891 2 [(2, 1), (3, 1), (5, 1), (7, 1), (193, 1), (3313, 1)] ?_ (by decide +kernel)
  simp only [List.forall_mem_cons, List.not_mem_nil, false_imp_iff, implies_true, and_true]
  exact ⟨prime_2, prime_3, prime_5, prime_7, prime_193, prime_3313⟩

theorem prime_17700247951621 : Nat.Prime 17700247951621 := by
  refine pratt 17700247951621 2 [(2, 2), (3, 1), (5, 1), (13, 3), (134275891, 1)] ?_ (by decide +kernel)
  simp only [List.forall_mem_cons, List.not_mem_nil, false_imp_iff, implies_true, and_true]
  exact ⟨prime_2, prime_3, prime_5, prime_13, prime_134275891⟩

theorem prime_1286531238451883917612880674872731 : Nat.Prime 1286531238451883917612880674872731 := by
  refine pratt 1286531238451883917612880674872731 2 [(2, 1), (5, 1), (787, 1), (1087, 1), (5413, 1), (1569635029, 1), (17700247951621, 1)] ?_ (by decide +kernel)
  simp only [List.forall_mem_cons, List.not_mem_nil, false_imp_iff, implies_true, and_true]
  exact ⟨prime_2, prime_5, prime_787, prime_1087, prime_5413, prime_1569635029, prime_17700247951621⟩

theorem prime_103 : Nat.Prime 103 := by norm_num

theorem prime_5641 : Nat.Prime 5641 := by norm_num

theorem prime_5669 : Nat.Prime 5669 := by norm_num

theorem prime_408169 : Nat.Prime 408169 := by
  refine pratt 408169 7 [(2, 3), (3, 2), (5669, 1)] ?_ (by decide +kernel)
  simp only [List.forall_mem_cons, List.not_mem_nil, false_imp_iff, implies_true, and_true]
  exact ⟨prime_2, prime_3, prime_5669⟩

theorem prime_461 : Nat.Prime 461 := by norm_num

theorem prime_83 : Nat.Prime 83 := by norm_num

theorem prime_196379 : Nat.Prime 196379 := by
  refine pratt 196379 2 [(2, 1), (7, 1), (13, 2), (83, 1)] ?_ (by decide +kernel)
  simp only [List.forall_mem_cons, List.not_mem_nil, false_imp_iff, implies_true, and_true]
  exact ⟨prime_2, prime_7, prime_13, prime_83⟩

theorem prime_362122877 : Nat.Prime 362122877 := by
  refine pratt 362122877 2 [(2, 2), (461, 1), (196379, 1)] ?_ (by decide +kernel)
  simp only [List.forall_mem_cons, List.not_mem_nil, false_imp_iff, implies_true, and_true]
  exact ⟨prime_2, prime_461, prime_196379⟩

theorem prime_225964675249 : Nat.Prime 225964675249 := by
  refine pratt 225964675249 7 [(2, 4), (3, 1), (13, 1), (362122877, 1)] ?_ (by decide +kernel)
  simp only [List.forall_mem_cons, List.not_mem_nil, false_imp_iff, implies_true, and_true]
  exact ⟨prime_2, prime_3, prime_13, prime_362122877⟩

theorem prime_21266751054232131901454750443841176801 : Nat.Prime 21266751054232131901454750443841176801 := by
  refine pratt 21266751054232131901454750443841176801 17 [(2, 5), (3, 1), (5, 2), (7, 1), (11, 1), (103, 1), (5641, 1), (408169, 1), (2147461007, 1), (225964675249, 1)] ?_ (by decide +kernel)
  simp only [List.forall_mem_cons, List.not_mem_nil, false_imp_iff, implies_true, and_true]
  exact ⟨prime_2, prime_3, prime_5, prime_7, prime_11, prime_103, prime_5641, prime_408169, prime_2147461007, prime_225964675249⟩

theorem prime_251 : Nat.Prime 251 := by norm_num

theorem prime_601 : Nat.Prime 601 := by norm_num

theorem prime_1801 : Nat.Prime 1801 := by norm_num

theorem prime_4051 : Nat.Prime 4051 := by norm_num

theorem prime_37 : Nat.Prime 37 := by norm_num

theorem prime_3547 : Nat.Prime 3547 := by norm_num

theorem prime_229668251 : Nat.Prime 229668251 := by
  refine pratt 229668251 7 [(2, 1), (5, 3), (7, 1), (37, 1), (3547, 1)] ?_ (by decide +kernel)
  simp only [List.forall_mem_cons, List.not_mem_nil, false_imp_iff, implies_true, and_true]
  exact ⟨prime_2, prime_5, prime_7, prime_37, prime_3547⟩

theorem prime_107 : Nat.Prime 107 := by norm_num

theorem prime_10223 : Nat.Prime 10223 := by norm_num

theorem prime_269089806001 : Nat.Prime 269089806001 := by
  refine pratt 269089806001 37 [(2, 4), (3, 1), (5, 3), (41, 1), (107, 1), (10223, 1)] ?_ (by decide +kernel)
  simp only [List.forall_mem_cons, List.not_mem_nil, false_imp_iff, implies_true, and_true]
  exact ⟨prime_2, prime_3, prime_5, prime_41, prime_107, prime_10223⟩

theorem prime_47 : Nat.Prime 47 := by norm_num

theorem prime_131 : Nat.Prime 131 := by norm_num

theorem prime_184711 : Nat.Prime 184711 := by
  refine pratt 184711 3 [(2, 1), (3, 1), (5, 1), (47, 1), (131, 1)] ?_ (by decide +kernel)
  simp only [List.forall_mem_cons, List.not_mem_nil, false_imp_iff, implies_true, and_true]
  exact ⟨prime_2, prime_3, prime_5, prime_47, prime_131⟩

theorem prime_43 : Nat.Prime 43 := by norm_num

theorem prime_842887 : Nat.Prime 842887 := by
  refine pratt 842887 3 [(2, 1), (3, 4), (11, 2), (43, 1)] ?_ (by decide +kernel)
  simp only [List.forall_mem_cons, List.not_mem_nil, false_imp_iff, implies_true, and_true]
  exact ⟨prime_2, prime_3, prime_11, prime_43⟩

theorem prime_4710883168879506001 : Nat.Prime 4710883168879506001 := by
  refine pratt 4710883168879506001 19 [(2, 4), (3, 2), (5, 3), (41, 2), (184711, 1), (842887, 1)] ?_ (by decide +kernel)
  simp only [List.forall_mem_cons, List.not_mem_nil, false_imp_iff, implies_true, and_true]
  exact ⟨prime_2, prime_3, prime_5, prime_41, prime_184711, prime_842887⟩

theorem prime_179 : Nat.Prime 179 := by norm_num

theorem prime_149 : Nat.Prime 149 := by norm_num

theorem prime_173 : Nat.Prime 173 := by norm_num

theorem prime_457 : Nat.Prime 457 := by norm_num

theorem prime_419527 : Nat.Prime 419527 := by
  refine pratt 419527 5 [(2, 1), (3, 3), (17, 1), (457, 1)] ?_ (by decide +kernel)
  simp only [List.forall_mem_cons, List.not_mem_nil, false_imp_iff, implies_true, and_true]
  exact ⟨prime_2, prime_3, prime_17, prime_457⟩

theorem prime_1864388056649 : Nat.Prime 1864388056649 := by
  refine pratt 1864388056649 3 [(2, 3), (13, 2), (19, 1), (173, 1), (419527, 1)] ?_ (by decide +kernel)
  simp only [List.forall_mem_cons, List.not_mem_nil, false_imp_iff, implies_true, and_true]
  exact ⟨prime_2, prime_13, prime_19, prime_173, prime_419527⟩

theorem prime_41113485425223749 : Nat.Prime 41113485425223749 := by
  refine pratt 41113485425223749 2 [(2, 2), (37, 1), (149, 1), (1864388056649, 1)] ?_ (by decide +kernel)
  simp only [List.forall_mem_cons, List.not_mem_nil, false_imp_iff, implies_true, and_true]
  exact ⟨prime_2, prime_37, prime_149, prime_1864388056649⟩

theorem prime_5519485418336288303251 : Nat.Prime 5519485418336288303251 := by
  refine pratt 5519485418336288303251 3 [(2, 1), (3, 1), (5, 3), (179, 1), (41113485425223749, 1)] ?_ (by decide +kernel)
  simp only [List.forall_mem_cons, List.not_mem_nil, false_imp_iff, implies_true, and_true]
  exact ⟨prime_2, prime_3, prime_5, prime_179, prime_41113485425223749⟩

theorem prime_257 : Nat.Prime 257 := by norm_num

theorem prime_641 : Nat.Prime 641 := by norm_num

theorem prime_65537 : Nat.Prime 65537 := by norm_num

theorem prime_274177 : Nat.Prime 274177 := by
  refine pratt 274177 5 [(2, 8), (3, 2), (7, 1), (17, 1)] ?_ (by decide +kernel)
  simp only [List.forall_mem_cons, List.not_mem_nil, false_imp_iff, implies_true, and_true]
  exact ⟨prime_2, prime_3, prime_7, prime_17⟩

theorem prime_17449 : Nat.Prime 17449 := by norm_num

theorem prime_6700417 : Nat.Prime 6700417 := by
  refine pratt 6700417 5 [(2, 7), (3, 1), (17449, 1)] ?_ (by decide +kernel)
  simp only [List.forall_mem_cons, List.not_mem_nil, false_imp_iff, implies_true, and_true]
  exact ⟨prime_2, prime_3, prime_17449⟩

theorem prime_373 : Nat.Prime 373 := by norm_num

theorem prime_16657 : Nat.Prime 16657 := by norm_num

theorem prime_166571 : Nat.Prime 166571 := by
  refine pratt 166571 2 [(2, 1), (5, 1), (16657, 1)] ?_ (by decide +kernel)
  simp only [List.forall_mem_cons, List.not_mem_nil, false_imp_iff, implies_true, and_true]
  exact ⟨prime_2, prime_5, prime_16657⟩

theorem prime_2998279 : Nat.Prime 2998279 := by
  refine pratt 2998279 3 [(2, 1), (3, 2), (166571, 1)] ?_ (by decide +kernel)
  simp only [List.forall_mem_cons, List.not_mem_nil, false_imp_iff, implies_true, and_true]
  exact ⟨prime_2, prime_3, prime_166571⟩

theorem prime_67280421310721 : Nat.Prime 67280421310721 := by
  refine pratt 67280421310721 3 [(2, 8), (5, 1), (47, 1), (373, 1), (2998279, 1)] ?_ (by decide +kernel)
  simp only [List.forall_mem_cons, List.not_mem_nil, false_imp_iff, implies_true, and_true]
  exact ⟨prime_2, prime_5, prime_47, prime_373, prime_2998279⟩

theorem prime_449 : Nat.Prime 449 := by norm_num

theorem prime_181 : Nat.Prime 181 := by norm_num

theorem prime_52673 : Nat.Prime 52673 := by norm_num

theorem prime_1896229 : Nat.Prime 1896229 := by
  refine pratt 1896229 2 [(2, 2), (3, 2), (52673, 1)] ?_ (by decide +kernel)
  simp only [List.forall_mem_cons, List.not_mem_nil, false_imp_iff, implies_true, and_true]
  exact ⟨prime_2, prime_3, prime_52673⟩

theorem prime_18533742247 : Nat.Prime 18533742247 := by
  refine pratt 18533742247 6 [(2, 1), (3, 3), (181, 1), (1896229, 1)] ?_ (by decide +kernel)
  simp only [List.forall_mem_cons, List.not_mem_nil, false_imp_iff, implies_true, and_true]
  exact ⟨prime_2, prime_3, prime_181, prime_1896229⟩

theorem prime_116503103764643 : Nat.Prime 116503103764643 := by
  refine pratt 116503103764643 2 [(2, 1), (7, 1), (449, 1), (18533742247, 1)] ?_ (by decide +kernel)
  simp only [List.forall_mem_cons, List.not_mem_nil, false_imp_iff, implies_true, and_true]
  exact ⟨prime_2, prime_7, prime_449, prime_18533742247⟩

theorem prime_59649589127497217 : Nat.Prime 59649589127497217 := by
  refine pratt 59649589127497217 3 [(2, 9), (116503103764643, 1)] ?_ (by decide +kernel)
  simp only [List.forall_mem_cons, List.not_mem_nil, false_imp_iff, implies_true, and_true]
  exact ⟨prime_2, prime_116503103764643⟩

theorem prime_12497 : Nat.Prime 12497 := by norm_num

theorem prime_2203 : Nat.Prime 2203 := by norm_num

theorem prime_139 : Nat.Prime 139 := by norm_num

theorem prime_1783 : Nat.Prime 1783 := by norm_num

theorem prime_6939437 : Nat.Prime 6939437 := by
  refine pratt 6939437 2 [(2, 2), (7, 1), (139, 1), (1783, 1)] ?_ (by decide +kernel)
  simp only [List.forall_mem_cons, List.not_mem_nil, false_imp_iff, implies_true, and_true]
  exact ⟨prime_2, prime_7, prime_139, prime_1783⟩

theorem prime_55515497 : Nat.Prime 55515497 := by
  refine pratt 55515497 3 [(2, 3), (6939437, 1)] ?_ (by decide +kernel)
  simp only [List.forall_mem_cons, List.not_mem_nil, false_imp_iff, implies_true, and_true]
  exact ⟨prime_2, prime_6939437⟩

theorem prime_733803839347 : Nat.Prime 733803839347 := by
  refine pratt 733803839347 2 [(2, 1), (3, 1), (2203, 1), (55515497, 1)] ?_ (by decide +kernel)
  simp only [List.forall_mem_cons, List.not_mem_nil, false_imp_iff, implies_true, and_true]
  exact ⟨prime_2, prime_3, prime_2203, prime_55515497⟩

theorem prime_5704689200685129054721 : Nat.Prime 5704689200685129054721 := by
  refine pratt 5704689200685129054721 21 [(2, 9), (3, 5), (5, 1), (12497, 1), (733803839347, 1)] ?_ (by decide +kernel)
  simp only [List.forall_mem_cons, List.not_mem_nil, false_imp_iff, implies_true, and_true]
  exact ⟨prime_2, prime_3, prime_5, prime_12497, prime_733803839347⟩

end Trng.PowMod
