import Verif.Ecc.Pocklington

/-! Primality of the field sizes of P-256, P-384 and P-521, by certificates. -/
namespace Yacl.Ecc.NistPrimes

theorem q704251 : Nat.Prime 704251 := by norm_num
theorem q78283 : Nat.Prime 78283 := by norm_num
theorem q46076956964474543 : Nat.Prime 46076956964474543 := by
  refine prime_of_check (by decide +kernel) [(704251, 1, 2), (78283, 1, 2)] (by decide +kernel) (by decide +kernel) ?_
  intro t ht
  simp only [List.mem_cons, List.not_mem_nil, or_false] at ht
  rcases ht with rfl | rfl
  · exact q704251
  · exact q78283
theorem q3677 : Nat.Prime 3677 := by norm_num
theorem q197 : Nat.Prime 197 := by norm_num
theorem q66417393611 : Nat.Prime 66417393611 := by
  refine prime_of_check (by decide +kernel) [(3677, 1, 2), (197, 1, 2)] (by decide +kernel) (by decide +kernel) ?_
  intro t ht
  simp only [List.mem_cons, List.not_mem_nil, or_false] at ht
  rcases ht with rfl | rfl
  · exact q3677
  · exact q197
theorem q11290956913871 : Nat.Prime 11290956913871 := by
  refine prime_of_check (by decide +kernel) [(66417393611, 1, 2)] (by decide +kernel) (by decide +kernel) ?_
  intro t ht
  simp only [List.mem_cons, List.not_mem_nil, or_false] at ht
  rcases ht with rfl
  · exact q66417393611
theorem q774023187263532362759620327192479577272145303 : Nat.Prime 774023187263532362759620327192479577272145303 := by
  refine prime_of_check (by decide +kernel) [(46076956964474543, 1, 2), (11290956913871, 1, 2)] (by decide +kernel) (by decide +kernel) ?_
  intro t ht
  simp only [List.mem_cons, List.not_mem_nil, or_false] at ht
  rcases ht with rfl | rfl
  · exact q46076956964474543
  · exact q11290956913871
theorem q835945042244614951780389953367877943453916927241 : Nat.Prime 835945042244614951780389953367877943453916927241 := by
  refine prime_of_check (by decide +kernel) [(774023187263532362759620327192479577272145303, 1, 2)] (by decide +kernel) (by decide +kernel) ?_
  intro t ht
  simp only [List.mem_cons, List.not_mem_nil, or_false] at ht
  rcases ht with rfl
  · exact q774023187263532362759620327192479577272145303
theorem p256 : Nat.Prime 115792089210356248762697446949407573530086143415290314195533631308867097853951 := by
  refine prime_of_check (by decide +kernel) [(835945042244614951780389953367877943453916927241, 1, 2)] (by decide +kernel) (by decide +kernel) ?_
  intro t ht
  simp only [List.mem_cons, List.not_mem_nil, or_false] at ht
  rcases ht with rfl
  · exact q835945042244614951780389953367877943453916927241
theorem q2 : Nat.Prime 2 := by norm_num
theorem q223 : Nat.Prime 223 := by norm_num
theorem q8620289 : Nat.Prime 8620289 := by
  refine prime_of_check (by decide +kernel) [(2, 8, 3), (223, 1, 2)] (by decide +kernel) (by decide +kernel) ?_
  intro t ht
  simp only [List.mem_cons, List.not_mem_nil, or_false] at ht
  rcases ht with rfl | rfl
  · exact q2
  · exact q223
theorem q2534364967 : Nat.Prime 2534364967 := by
  refine prime_of_check (by decide +kernel) [(8620289, 1, 2)] (by decide +kernel) (by decide +kernel) ?_
  intro t ht
  simp only [List.mem_cons, List.not_mem_nil, or_false] at ht
  rcases ht with rfl
  · exact q8620289
theorem q145295143558111 : Nat.Prime 145295143558111 := by
  refine prime_of_check (by decide +kernel) [(2534364967, 1, 3)] (by decide +kernel) (by decide +kernel) ?_
  intro t ht
  simp only [List.mem_cons, List.not_mem_nil, or_false] at ht
  rcases ht with rfl
  · exact q2534364967
theorem q23609 : Nat.Prime 23609 := by norm_num
theorem q1433 : Nat.Prime 1433 := by norm_num
theorem q108140989558681 : Nat.Prime 108140989558681 := by
  refine prime_of_check (by decide +kernel) [(23609, 1, 3), (1433, 1, 3)] (by decide +kernel) (by decide +kernel) ?_
  intro t ht
  simp only [List.mem_cons, List.not_mem_nil, or_false] at ht
  rcases ht with rfl | rfl
  · exact q23609
  · exact q1433
theorem q1381 : Nat.Prime 1381 := by norm_num
theorem q5 : Nat.Prime 5 := by norm_num
theorem q34110701 : Nat.Prime 34110701 := by
  refine prime_of_check (by decide +kernel) [(1381, 1, 3), (5, 2, 5)] (by decide +kernel) (by decide +kernel) ?_
  intro t ht
  simp only [List.mem_cons, List.not_mem_nil, or_false] at ht
  rcases ht with rfl | rfl
  · exact q1381
  · exact q5
theorem q317 : Nat.Prime 317 := by norm_num
theorem q37 : Nat.Prime 37 := by norm_num
theorem q7623851 : Nat.Prime 7623851 := by
  refine prime_of_check (by decide +kernel) [(317, 1, 3), (37, 1, 3)] (by decide +kernel) (by decide +kernel) ?_
  intro t ht
  simp only [List.mem_cons, List.not_mem_nil, or_false] at ht
  rcases ht with rfl | rfl
  · exact q317
  · exact q37
theorem q409891 : Nat.Prime 409891 := by norm_num
theorem q51481 : Nat.Prime 51481 := by norm_num
theorem q8191 : Nat.Prime 8191 := by norm_num
theorem q2731 : Nat.Prime 2731 := by norm_num
theorem q1613 : Nat.Prime 1613 := by norm_num
theorem q521 : Nat.Prime 521 := by norm_num
theorem q157 : Nat.Prime 157 := by norm_num
theorem q131 : Nat.Prime 131 := by norm_num
theorem q53 : Nat.Prime 53 := by norm_num
theorem q41 : Nat.Prime 41 := by norm_num
theorem q31 : Nat.Prime 31 := by norm_num
theorem q11 : Nat.Prime 11 := by norm_num
theorem q3 : Nat.Prime 3 := by norm_num
theorem p521 : Nat.Prime 6864797660130609714981900799081393217269435300143305409394463459185543183397656052122559640661454554977296311391480858037121987999716643812574028291115057151 := by
  refine prime_of_check (by decide +kernel) [(145295143558111, 1, 3), (108140989558681, 1, 3), (34110701, 1, 3), (7623851, 1, 3), (409891, 1, 3), (51481, 1, 3), (8191, 1, 3), (2731, 1, 3), (1613, 1, 3), (521, 1, 2), (157, 1, 3), (131, 1, 3), (53, 1, 3), (41, 1, 3), (31, 1, 3), (5, 2, 3), (11, 1, 3), (3, 1, 3), (2, 1, 3)] (by decide +kernel) (by decide +kernel) ?_
  intro t ht
  simp only [List.mem_cons, List.not_mem_nil, or_false] at ht
  rcases ht with rfl | rfl | rfl | rfl | rfl | rfl | rfl | rfl | rfl | rfl | rfl | rfl | rfl | rfl | rfl | rfl | rfl | rfl | rfl
  · exact q145295143558111
  · exact q108140989558681
  · exact q34110701
  · exact q7623851
  · exact q409891
  · exact q51481
  · exact q8191
  · exact q2731
  · exact q1613
  · exact q521
  · exact q157
  · exact q131
  · exact q53
  · exact q41
  · exact q31
  · exact q5
  · exact q11
  · exact q3
  · exact q2
theorem q363557 : Nat.Prime 363557 := by norm_num
theorem q532247449 : Nat.Prime 532247449 := by
  refine prime_of_check (by decide +kernel) [(363557, 1, 2)] (by decide +kernel) (by decide +kernel) ?_
  intro t ht
  simp only [List.mem_cons, List.not_mem_nil, or_false] at ht
  rcases ht with rfl
  · exact q363557
theorem q44925942675193 : Nat.Prime 44925942675193 := by
  refine prime_of_check (by decide +kernel) [(532247449, 1, 2)] (by decide +kernel) (by decide +kernel) ?_
  intro t ht
  simp only [List.mem_cons, List.not_mem_nil, or_false] at ht
  rcases ht with rfl
  · exact q532247449
theorem q35581458644053887931343 : Nat.Prime 35581458644053887931343 := by
  refine prime_of_check (by decide +kernel) [(44925942675193, 1, 2)] (by decide +kernel) (by decide +kernel) ?_
  intro t ht
  simp only [List.mem_cons, List.not_mem_nil, or_false] at ht
  rcases ht with rfl
  · exact q44925942675193
theorem q23964610537191310276190549303 : Nat.Prime 23964610537191310276190549303 := by
  refine prime_of_check (by decide +kernel) [(35581458644053887931343, 1, 2)] (by decide +kernel) (by decide +kernel) ?_
  intro t ht
  simp only [List.mem_cons, List.not_mem_nil, or_false] at ht
  rcases ht with rfl
  · exact q35581458644053887931343
theorem q862725979338887169942859774909 : Nat.Prime 862725979338887169942859774909 := by
  refine prime_of_check (by decide +kernel) [(23964610537191310276190549303, 1, 2)] (by decide +kernel) (by decide +kernel) ?_
  intro t ht
  simp only [List.mem_cons, List.not_mem_nil, or_false] at ht
  rcases ht with rfl
  · exact q23964610537191310276190549303
theorem q20705423504133292078628634597817 : Nat.Prime 20705423504133292078628634597817 := by
  refine prime_of_check (by decide +kernel) [(862725979338887169942859774909, 1, 2)] (by decide +kernel) (by decide +kernel) ?_
  intro t ht
  simp only [List.mem_cons, List.not_mem_nil, or_false] at ht
  rcases ht with rfl
  · exact q862725979338887169942859774909
theorem q413244619895455989650825325680172591660047 : Nat.Prime 413244619895455989650825325680172591660047 := by
  refine prime_of_check (by decide +kernel) [(20705423504133292078628634597817, 1, 2)] (by decide +kernel) (by decide +kernel) ?_
  intro t ht
  simp only [List.mem_cons, List.not_mem_nil, or_false] at ht
  rcases ht with rfl
  · exact q20705423504133292078628634597817
theorem q12397338596863679689524759770405177749801411 : Nat.Prime 12397338596863679689524759770405177749801411 := by
  refine prime_of_check (by decide +kernel) [(413244619895455989650825325680172591660047, 1, 2)] (by decide +kernel) (by decide +kernel) ?_
  intro t ht
  simp only [List.mem_cons, List.not_mem_nil, or_false] at ht
  rcases ht with rfl
  · exact q413244619895455989650825325680172591660047
theorem q21407 : Nat.Prime 21407 := by norm_num
theorem q246608641 : Nat.Prime 246608641 := by
  refine prime_of_check (by decide +kernel) [(21407, 1, 2)] (by decide +kernel) (by decide +kernel) ?_
  intro t ht
  simp only [List.mem_cons, List.not_mem_nil, or_false] at ht
  rcases ht with rfl
  · exact q21407
theorem q881 : Nat.Prime 881 := by norm_num
theorem q211 : Nat.Prime 211 := by norm_num
theorem q105957871 : Nat.Prime 105957871 := by
  refine prime_of_check (by decide +kernel) [(881, 1, 2), (211, 1, 2)] (by decide +kernel) (by decide +kernel) ?_
  intro t ht
  simp only [List.mem_cons, List.not_mem_nil, or_false] at ht
  rcases ht with rfl | rfl
  · exact q881
  · exact q211
theorem q529709925838459440593 : Nat.Prime 529709925838459440593 := by
  refine prime_of_check (by decide +kernel) [(246608641, 1, 2), (105957871, 1, 2)] (by decide +kernel) (by decide +kernel) ?_
  intro t ht
  simp only [List.mem_cons, List.not_mem_nil, or_false] at ht
  rcases ht with rfl | rfl
  · exact q246608641
  · exact q105957871
theorem q19173790298027098165721053155794528970226934547887232785722672956982046098136719667167519737147526097 : Nat.Prime 19173790298027098165721053155794528970226934547887232785722672956982046098136719667167519737147526097 := by
  refine prime_of_check (by decide +kernel) [(12397338596863679689524759770405177749801411, 1, 2), (529709925838459440593, 1, 2)] (by decide +kernel) (by decide +kernel) ?_
  intro t ht
  simp only [List.mem_cons, List.not_mem_nil, or_false] at ht
  rcases ht with rfl | rfl
  · exact q12397338596863679689524759770405177749801411
  · exact q529709925838459440593
theorem p384 : Nat.Prime 39402006196394479212279040100143613805079739270465446667948293404245721771496870329047266088258938001861606973112319 := by
  refine prime_of_check (by decide +kernel) [(19173790298027098165721053155794528970226934547887232785722672956982046098136719667167519737147526097, 1, 2)] (by decide +kernel) (by decide +kernel) ?_
  intro t ht
  simp only [List.mem_cons, List.not_mem_nil, or_false] at ht
  rcases ht with rfl
  · exact q19173790298027098165721053155794528970226934547887232785722672956982046098136719667167519737147526097

end Yacl.Ecc.NistPrimes
