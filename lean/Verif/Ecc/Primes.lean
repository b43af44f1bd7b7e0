import Verif.Ecc.Pocklington

/-! Primality of the field sizes and group orders of the predefined curves, by certificates. -/
namespace Yacl.Ecc.Primes

theorem q430751 : Nat.Prime 430751 := by norm_num
theorem q4153 : Nat.Prime 4153 := by norm_num
theorem q31757755568855353 : Nat.Prime 31757755568855353 := by
  refine prime_of_check (by decide +kernel) [(430751, 1, 2), (4153, 1, 2)] (by decide +kernel) (by decide +kernel) ?_
  intro t ht
  simp only [List.mem_cons, List.not_mem_nil, or_false] at ht
  rcases ht with rfl | rfl
  · exact q430751
  · exact q4153
theorem q3727 : Nat.Prime 3727 := by norm_num
theorem q1923133 : Nat.Prime 1923133 := by
  refine prime_of_check (by decide +kernel) [(3727, 1, 2)] (by decide +kernel) (by decide +kernel) ?_
  intro t ht
  simp only [List.mem_cons, List.not_mem_nil, or_false] at ht
  rcases ht with rfl
  · exact q3727
theorem q132049 : Nat.Prime 132049 := by norm_num
theorem q57467 : Nat.Prime 57467 := by norm_num
theorem q353 : Nat.Prime 353 := by norm_num
theorem q3 : Nat.Prime 3 := by norm_num
theorem q74058212732561358302231226437062788676166966415465897661863160754340907 : Nat.Prime 74058212732561358302231226437062788676166966415465897661863160754340907 := by
  refine prime_of_check (by decide +kernel) [(31757755568855353, 1, 2), (1923133, 1, 2), (132049, 1, 2), (57467, 1, 2), (353, 1, 2), (3, 1, 2)] (by decide +kernel) (by decide +kernel) ?_
  intro t ht
  simp only [List.mem_cons, List.not_mem_nil, or_false] at ht
  rcases ht with rfl | rfl | rfl | rfl | rfl | rfl
  · exact q31757755568855353
  · exact q1923133
  · exact q132049
  · exact q57467
  · exact q353
  · exact q3
theorem p25519 : Nat.Prime 57896044618658097711785492504343953926634992332820282019728792003956564819949 := by
  refine prime_of_check (by decide +kernel) [(74058212732561358302231226437062788676166966415465897661863160754340907, 1, 2)] (by decide +kernel) (by decide +kernel) ?_
  intro t ht
  simp only [List.mem_cons, List.not_mem_nil, or_false] at ht
  rcases ht with rfl
  · exact q74058212732561358302231226437062788676166966415465897661863160754340907
theorem q531581 : Nat.Prime 531581 := by norm_num
theorem q23 : Nat.Prime 23 := by norm_num
theorem q7 : Nat.Prime 7 := by norm_num
theorem q1257559732178653 : Nat.Prime 1257559732178653 := by
  refine prime_of_check (by decide +kernel) [(531581, 1, 2), (23, 1, 2), (7, 1, 2)] (by decide +kernel) (by decide +kernel) ?_
  intro t ht
  simp only [List.mem_cons, List.not_mem_nil, or_false] at ht
  rcases ht with rfl | rfl | rfl
  · exact q531581
  · exact q23
  · exact q7
theorem q4434155615661930479 : Nat.Prime 4434155615661930479 := by
  refine prime_of_check (by decide +kernel) [(1257559732178653, 1, 2)] (by decide +kernel) (by decide +kernel) ?_
  intro t ht
  simp only [List.mem_cons, List.not_mem_nil, or_false] at ht
  rcases ht with rfl
  · exact q1257559732178653
theorem q172054593956031949258510691 : Nat.Prime 172054593956031949258510691 := by
  refine prime_of_check (by decide +kernel) [(4434155615661930479, 1, 2)] (by decide +kernel) (by decide +kernel) ?_
  intro t ht
  simp only [List.mem_cons, List.not_mem_nil, or_false] at ht
  rcases ht with rfl
  · exact q4434155615661930479
theorem q19757330305831588566944191468367130476339 : Nat.Prime 19757330305831588566944191468367130476339 := by
  refine prime_of_check (by decide +kernel) [(172054593956031949258510691, 1, 2)] (by decide +kernel) (by decide +kernel) ?_
  intro t ht
  simp only [List.mem_cons, List.not_mem_nil, or_false] at ht
  rcases ht with rfl
  · exact q172054593956031949258510691
theorem q276602624281642239937218680557139826668747 : Nat.Prime 276602624281642239937218680557139826668747 := by
  refine prime_of_check (by decide +kernel) [(19757330305831588566944191468367130476339, 1, 2)] (by decide +kernel) (by decide +kernel) ?_
  intro t ht
  simp only [List.mem_cons, List.not_mem_nil, or_false] at ht
  rcases ht with rfl
  · exact q19757330305831588566944191468367130476339
theorem n25519 : Nat.Prime 7237005577332262213973186563042994240857116359379907606001950938285454250989 := by
  refine prime_of_check (by decide +kernel) [(276602624281642239937218680557139826668747, 1, 2)] (by decide +kernel) (by decide +kernel) ?_
  intro t ht
  simp only [List.mem_cons, List.not_mem_nil, or_false] at ht
  rcases ht with rfl
  · exact q276602624281642239937218680557139826668747
theorem q96557 : Nat.Prime 96557 := by norm_num
theorem q41201 : Nat.Prime 41201 := by norm_num
theorem q4423 : Nat.Prime 4423 := by norm_num
theorem q2657 : Nat.Prime 2657 := by norm_num
theorem q1627 : Nat.Prime 1627 := by norm_num
theorem q255515944373312847190720520512484175977 : Nat.Prime 255515944373312847190720520512484175977 := by
  refine prime_of_check (by decide +kernel) [(96557, 1, 2), (41201, 1, 2), (4423, 1, 2), (2657, 1, 2), (1627, 1, 2)] (by decide +kernel) (by decide +kernel) ?_
  intro t ht
  simp only [List.mem_cons, List.not_mem_nil, or_false] at ht
  rcases ht with rfl | rfl | rfl | rfl | rfl
  · exact q96557
  · exact q41201
  · exact q4423
  · exact q2657
  · exact q1627
theorem q205115282021455665897114700593932402728804164701536103180137503955397371 : Nat.Prime 205115282021455665897114700593932402728804164701536103180137503955397371 := by
  refine prime_of_check (by decide +kernel) [(255515944373312847190720520512484175977, 1, 2)] (by decide +kernel) (by decide +kernel) ?_
  intro t ht
  simp only [List.mem_cons, List.not_mem_nil, or_false] at ht
  rcases ht with rfl
  · exact q255515944373312847190720520512484175977
theorem pk1 : Nat.Prime 115792089237316195423570985008687907853269984665640564039457584007908834671663 := by
  refine prime_of_check (by decide +kernel) [(205115282021455665897114700593932402728804164701536103180137503955397371, 1, 2)] (by decide +kernel) (by decide +kernel) ?_
  intro t ht
  simp only [List.mem_cons, List.not_mem_nil, or_false] at ht
  rcases ht with rfl
  · exact q205115282021455665897114700593932402728804164701536103180137503955397371
theorem q28181 : Nat.Prime 28181 := by norm_num
theorem q545358713 : Nat.Prime 545358713 := by
  refine prime_of_check (by decide +kernel) [(28181, 1, 2)] (by decide +kernel) (by decide +kernel) ?_
  intro t ht
  simp only [List.mem_cons, List.not_mem_nil, or_false] at ht
  rcases ht with rfl
  · exact q28181
theorem q305873 : Nat.Prime 305873 := by norm_num
theorem q293 : Nat.Prime 293 := by norm_num
theorem q29047611873442575647497758179 : Nat.Prime 29047611873442575647497758179 := by
  refine prime_of_check (by decide +kernel) [(545358713, 1, 2), (305873, 1, 2), (293, 1, 2)] (by decide +kernel) (by decide +kernel) ?_
  intro t ht
  simp only [List.mem_cons, List.not_mem_nil, or_false] at ht
  rcases ht with rfl | rfl | rfl
  · exact q545358713
  · exact q305873
  · exact q293
theorem q341948486974166000522343609283189 : Nat.Prime 341948486974166000522343609283189 := by
  refine prime_of_check (by decide +kernel) [(29047611873442575647497758179, 1, 2)] (by decide +kernel) (by decide +kernel) ?_
  intro t ht
  simp only [List.mem_cons, List.not_mem_nil, or_false] at ht
  rcases ht with rfl
  · exact q29047611873442575647497758179
theorem q120233 : Nat.Prime 120233 := by norm_num
theorem q4051 : Nat.Prime 4051 := by norm_num
theorem q59 : Nat.Prime 59 := by norm_num
theorem q174723607534414371449 : Nat.Prime 174723607534414371449 := by
  refine prime_of_check (by decide +kernel) [(120233, 1, 2), (4051, 1, 2), (59, 1, 2)] (by decide +kernel) (by decide +kernel) ?_
  intro t ht
  simp only [List.mem_cons, List.not_mem_nil, or_false] at ht
  rcases ht with rfl | rfl | rfl
  · exact q120233
  · exact q4051
  · exact q59
theorem nk1 : Nat.Prime 115792089237316195423570985008687907852837564279074904382605163141518161494337 := by
  refine prime_of_check (by decide +kernel) [(341948486974166000522343609283189, 1, 2), (174723607534414371449, 1, 2)] (by decide +kernel) (by decide +kernel) ?_
  intro t ht
  simp only [List.mem_cons, List.not_mem_nil, or_false] at ht
  rcases ht with rfl | rfl
  · exact q341948486974166000522343609283189
  · exact q174723607534414371449
theorem q2473 : Nat.Prime 2473 := by norm_num
theorem q367 : Nat.Prime 367 := by norm_num
theorem q2 : Nat.Prime 2 := by norm_num
theorem q417514796639753 : Nat.Prime 417514796639753 := by
  refine prime_of_check (by decide +kernel) [(2473, 1, 2), (367, 1, 2), (7, 1, 2), (2, 2, 3)] (by decide +kernel) (by decide +kernel) ?_
  intro t ht
  simp only [List.mem_cons, List.not_mem_nil, or_false] at ht
  rcases ht with rfl | rfl | rfl | rfl
  · exact q2473
  · exact q367
  · exact q7
  · exact q2
theorem q5711 : Nat.Prime 5711 := by norm_num
theorem q337 : Nat.Prime 337 := by norm_num
theorem q3017783777 : Nat.Prime 3017783777 := by
  refine prime_of_check (by decide +kernel) [(5711, 1, 2), (337, 1, 2)] (by decide +kernel) (by decide +kernel) ?_
  intro t ht
  simp only [List.mem_cons, List.not_mem_nil, or_false] at ht
  rcases ht with rfl | rfl
  · exact q5711
  · exact q337
theorem q4641351449027 : Nat.Prime 4641351449027 := by
  refine prime_of_check (by decide +kernel) [(3017783777, 1, 2)] (by decide +kernel) (by decide +kernel) ?_
  intro t ht
  simp only [List.mem_cons, List.not_mem_nil, or_false] at ht
  rcases ht with rfl
  · exact q3017783777
theorem q179429 : Nat.Prime 179429 := by norm_num
theorem q5303 : Nat.Prime 5303 := by norm_num
theorem q348253387243 : Nat.Prime 348253387243 := by
  refine prime_of_check (by decide +kernel) [(179429, 1, 2), (5303, 1, 2)] (by decide +kernel) (by decide +kernel) ?_
  intro t ht
  simp only [List.mem_cons, List.not_mem_nil, or_false] at ht
  rcases ht with rfl | rfl
  · exact q179429
  · exact q5303
theorem psm2 : Nat.Prime 115792089210356248756420345214020892766250353991924191454421193933289684991999 := by
  refine prime_of_check (by decide +kernel) [(417514796639753, 1, 2), (4641351449027, 1, 2), (348253387243, 1, 2)] (by decide +kernel) (by decide +kernel) ?_
  intro t ht
  simp only [List.mem_cons, List.not_mem_nil, or_false] at ht
  rcases ht with rfl | rfl | rfl
  · exact q417514796639753
  · exact q4641351449027
  · exact q348253387243
theorem q84163 : Nat.Prime 84163 := by norm_num
theorem q2566129871 : Nat.Prime 2566129871 := by
  refine prime_of_check (by decide +kernel) [(84163, 1, 2)] (by decide +kernel) (by decide +kernel) ?_
  intro t ht
  simp only [List.mem_cons, List.not_mem_nil, or_false] at ht
  rcases ht with rfl
  · exact q84163
theorem q12149 : Nat.Prime 12149 := by norm_num
theorem q107615843 : Nat.Prime 107615843 := by
  refine prime_of_check (by decide +kernel) [(12149, 1, 2)] (by decide +kernel) (by decide +kernel) ?_
  intro t ht
  simp only [List.mem_cons, List.not_mem_nil, or_false] at ht
  rcases ht with rfl
  · exact q12149
theorem q233 : Nat.Prime 233 := by norm_num
theorem q181 : Nat.Prime 181 := by norm_num
theorem q17965699 : Nat.Prime 17965699 := by
  refine prime_of_check (by decide +kernel) [(233, 1, 2), (181, 1, 2)] (by decide +kernel) (by decide +kernel) ?_
  intro t ht
  simp only [List.mem_cons, List.not_mem_nil, or_false] at ht
  rcases ht with rfl | rfl
  · exact q233
  · exact q181
theorem q18120927127286907576013935251791662753637 : Nat.Prime 18120927127286907576013935251791662753637 := by
  refine prime_of_check (by decide +kernel) [(2566129871, 1, 2), (107615843, 1, 2), (17965699, 1, 2)] (by decide +kernel) (by decide +kernel) ?_
  intro t ht
  simp only [List.mem_cons, List.not_mem_nil, or_false] at ht
  rcases ht with rfl | rfl | rfl
  · exact q2566129871
  · exact q107615843
  · exact q17965699
theorem q125197554539772723432468576818475380947471091418362477724521 : Nat.Prime 125197554539772723432468576818475380947471091418362477724521 := by
  refine prime_of_check (by decide +kernel) [(18120927127286907576013935251791662753637, 1, 2)] (by decide +kernel) (by decide +kernel) ?_
  intro t ht
  simp only [List.mem_cons, List.not_mem_nil, or_false] at ht
  rcases ht with rfl
  · exact q18120927127286907576013935251791662753637
theorem nsm2 : Nat.Prime 115792089210356248756420345214020892766061623724957744567843809356293439045923 := by
  refine prime_of_check (by decide +kernel) [(125197554539772723432468576818475380947471091418362477724521, 1, 2)] (by decide +kernel) (by decide +kernel) ?_
  intro t ht
  simp only [List.mem_cons, List.not_mem_nil, or_false] at ht
  rcases ht with rfl
  · exact q125197554539772723432468576818475380947471091418362477724521

end Yacl.Ecc.Primes
