import Verif.Ecc.Sswu
import Verif.Ecc.NistPrimes

/-! The constants of P-256, P-384 and P-521 meet the conditions of RFC 9380. -/
namespace Yacl.Ecc.H2C
open Vss (cast_mod)

theorem nonsquare_of {p : ℕ} [Fact p.Prime] (z : ℕ) (h : pw p (Nat.log2 (p / 2) + 1) z (p / 2) = p - 1) (h2 : p ≠ 2) : ¬ IsSquare ((z : ℕ) : ZMod p) := by
  have hp : p.Prime := Fact.out
  have h3 := hp.two_le
  rw [pw_eq _ _ _ _ Nat.lt_log2_self] at h
  have hc : ((z : ℕ) : ZMod p) ^ (p / 2) = -1 := by
    have : ((z ^ (p / 2) % p : ℕ) : ZMod p) = ((p - 1 : ℕ) : ZMod p) := congrArg _ h
    rw [ZMod.natCast_mod, Nat.cast_pow, Nat.cast_sub (by omega), ZMod.natCast_self, zero_sub, Nat.cast_one] at this
    exact this
  have h0 : ((z : ℕ) : ZMod p) ≠ 0 := by
    intro h0
    rw [h0, zero_pow (by omega)] at hc
    have : (1 : ZMod p) = 0 := by linear_combination hc
    exact one_ne_zero this
  rw [ZMod.euler_criterion p h0, hc]
  intro h1
  have : ((2 : ℕ) : ZMod p) = 0 := by push_cast; linear_combination -h1
  rw [ZMod.natCast_eq_zero_iff] at this
  exact h2 ((Nat.prime_dvd_prime_iff_eq hp Nat.prime_two).mp this)

theorem ne_zero_of {p : ℕ} (a : ℤ) (h : a % (p : ℤ) ≠ 0) : (a : ZMod p) ≠ 0 := by
  rw [Ne, ZMod.intCast_zmod_eq_zero_iff_dvd]
  intro h'
  exact h (Int.emod_eq_zero_of_dvd h')

theorem eq_of_emod {p : ℕ} (a b : ℤ) (h : a % (p : ℤ) = b % (p : ℤ)) : (a : ZMod p) = b := by
  rw [ZMod.intCast_eq_intCast_iff]
  exact h

/-- The field size of P-256. -/
def P256 : ℕ := 115792089210356248762697446949407573530086143415290314195533631308867097853951
instance : Fact P256.Prime := ⟨NistPrimes.p256⟩

theorem suite_p256 (h : Hash) : Suite (ctx256 h) P256 where
  hp := rfl
  h34 := by decide +kernel
  c1 := by
    show (28948022302589062190674361737351893382521535853822578548883407827216774463488 : ℤ) = _
    decide +kernel
  hA := ne_zero_of _ (by
    show (115792089210356248762697446949407573530086143415290314195533631308867097853948 : ℤ) % _ ≠ 0
    decide +kernel)
  hB := ne_zero_of _ (by
    show (41058363725152142129326129780047268409114441015993725554835256314039467401291 : ℤ) % _ ≠ 0
    decide +kernel)
  hZ := by
    have := nonsquare_of (p := P256) 115792089210356248762697446949407573530086143415290314195533631308867097853941 (by decide +kernel) (by decide +kernel)
    rw [← Int.cast_natCast] at this
    exact this
  hG := by
    refine ⟨((74703601957397362287352587393959705516025038863550323175665808372750477554212 : ℤ) : ZMod P256), ?_, ((6501495017824578668815466053538685894748441653268928328498100493089435342678 : ℤ) : ZMod P256), ?_⟩
    · have := eq_of_emod (p := P256) (74703601957397362287352587393959705516025038863550323175665808372750477554212 * (115792089210356248762697446949407573530086143415290314195533631308867097853941 * 115792089210356248762697446949407573530086143415290314195533631308867097853948)) 41058363725152142129326129780047268409114441015993725554835256314039467401291 (by decide +kernel)
      rw [Int.cast_mul, Int.cast_mul] at this
      exact this
    · have := eq_of_emod (p := P256) (74703601957397362287352587393959705516025038863550323175665808372750477554212 ^ 3 + 115792089210356248762697446949407573530086143415290314195533631308867097853948 * 74703601957397362287352587393959705516025038863550323175665808372750477554212 + 41058363725152142129326129780047268409114441015993725554835256314039467401291) (6501495017824578668815466053538685894748441653268928328498100493089435342678 * 6501495017824578668815466053538685894748441653268928328498100493089435342678) (by decide +kernel)
      rw [Int.cast_add, Int.cast_add, Int.cast_mul, Int.cast_mul, Int.cast_pow] at this
      exact this

/-- The field size of P-384. -/
def P384 : ℕ := 39402006196394479212279040100143613805079739270465446667948293404245721771496870329047266088258938001861606973112319
instance : Fact P384.Prime := ⟨NistPrimes.p384⟩

theorem suite_p384 (h : Hash) : Suite (ctx384 h) P384 where
  hp := rfl
  h34 := by decide +kernel
  c1 := by
    show (9850501549098619803069760025035903451269934817616361666987073351061430442874217582261816522064734500465401743278080 : ℤ) = _
    decide +kernel
  hA := ne_zero_of _ (by
    show (39402006196394479212279040100143613805079739270465446667948293404245721771496870329047266088258938001861606973112316 : ℤ) % _ ≠ 0
    decide +kernel)
  hB := ne_zero_of _ (by
    show (27580193559959705877849011840389048093056905856361568521428707301988689241309860865136260764883745107765439761230575 : ℤ) % _ ≠ 0
    decide +kernel)
  hZ := by
    have := nonsquare_of (p := P384) 39402006196394479212279040100143613805079739270465446667948293404245721771496870329047266088258938001861606973112307 (by decide +kernel) (by decide +kernel)
    rw [← Int.cast_natCast] at this
    exact this
  hG := by
    refine ⟨((12805618381119416033692179248388022220803723273096707829690553743019211909104873180129338548214779531340086568485169 : ℤ) : ZMod P384), ?_, ((37561047755030469683523571075854451141166426459879495640879726933488836242211037541742600528865780251189269636994147 : ℤ) : ZMod P384), ?_⟩
    · have := eq_of_emod (p := P384) (12805618381119416033692179248388022220803723273096707829690553743019211909104873180129338548214779531340086568485169 * (39402006196394479212279040100143613805079739270465446667948293404245721771496870329047266088258938001861606973112307 * 39402006196394479212279040100143613805079739270465446667948293404245721771496870329047266088258938001861606973112316)) 27580193559959705877849011840389048093056905856361568521428707301988689241309860865136260764883745107765439761230575 (by decide +kernel)
      rw [Int.cast_mul, Int.cast_mul] at this
      exact this
    · have := eq_of_emod (p := P384) (12805618381119416033692179248388022220803723273096707829690553743019211909104873180129338548214779531340086568485169 ^ 3 + 39402006196394479212279040100143613805079739270465446667948293404245721771496870329047266088258938001861606973112316 * 12805618381119416033692179248388022220803723273096707829690553743019211909104873180129338548214779531340086568485169 + 27580193559959705877849011840389048093056905856361568521428707301988689241309860865136260764883745107765439761230575) (37561047755030469683523571075854451141166426459879495640879726933488836242211037541742600528865780251189269636994147 * 37561047755030469683523571075854451141166426459879495640879726933488836242211037541742600528865780251189269636994147) (by decide +kernel)
      rw [Int.cast_add, Int.cast_add, Int.cast_mul, Int.cast_mul, Int.cast_pow] at this
      exact this

/-- The field size of P-521. -/
def P521 : ℕ := 6864797660130609714981900799081393217269435300143305409394463459185543183397656052122559640661454554977296311391480858037121987999716643812574028291115057151
instance : Fact P521.Prime := ⟨NistPrimes.p521⟩

theorem suite_p521 (h : Hash) : Suite (ctx521 h) P521 where
  hp := rfl
  h34 := by decide +kernel
  c1 := by
    show (1716199415032652428745475199770348304317358825035826352348615864796385795849414013030639910165363638744324077847870214509280496999929160953143507072778764288 : ℤ) = _
    decide +kernel
  hA := ne_zero_of _ (by
    show (6864797660130609714981900799081393217269435300143305409394463459185543183397656052122559640661454554977296311391480858037121987999716643812574028291115057148 : ℤ) % _ ≠ 0
    decide +kernel)
  hB := ne_zero_of _ (by
    show (1093849038073734274511112390766805569936207598951683748994586394495953116150735016013708737573759623248592132296706313309438452531591012912142327488478985984 : ℤ) % _ ≠ 0
    decide +kernel)
  hZ := by
    have := nonsquare_of (p := P521) 6864797660130609714981900799081393217269435300143305409394463459185543183397656052122559640661454554977296311391480858037121987999716643812574028291115057147 (by decide +kernel) (by decide +kernel)
    rw [← Int.cast_natCast] at this
    exact this
  hG := by
    refine ⟨((2379419973216347761203226298924364869917829066627075448881036685936510487478446602041995608351631486929814781488552478788160533710871465680203203387744934549 : ℤ) : ZMod P521), ?_, ((4188908791901337644056397817783792572876836449495258060969526555609398613698955607791458766794689806573214219675396443069584436669967806295120330080081548533 : ℤ) : ZMod P521), ?_⟩
    · have := eq_of_emod (p := P521) (2379419973216347761203226298924364869917829066627075448881036685936510487478446602041995608351631486929814781488552478788160533710871465680203203387744934549 * (6864797660130609714981900799081393217269435300143305409394463459185543183397656052122559640661454554977296311391480858037121987999716643812574028291115057147 * 6864797660130609714981900799081393217269435300143305409394463459185543183397656052122559640661454554977296311391480858037121987999716643812574028291115057148)) 1093849038073734274511112390766805569936207598951683748994586394495953116150735016013708737573759623248592132296706313309438452531591012912142327488478985984 (by decide +kernel)
      rw [Int.cast_mul, Int.cast_mul] at this
      exact this
    · have := eq_of_emod (p := P521) (2379419973216347761203226298924364869917829066627075448881036685936510487478446602041995608351631486929814781488552478788160533710871465680203203387744934549 ^ 3 + 6864797660130609714981900799081393217269435300143305409394463459185543183397656052122559640661454554977296311391480858037121987999716643812574028291115057148 * 2379419973216347761203226298924364869917829066627075448881036685936510487478446602041995608351631486929814781488552478788160533710871465680203203387744934549 + 1093849038073734274511112390766805569936207598951683748994586394495953116150735016013708737573759623248592132296706313309438452531591012912142327488478985984) (4188908791901337644056397817783792572876836449495258060969526555609398613698955607791458766794689806573214219675396443069584436669967806295120330080081548533 * 4188908791901337644056397817783792572876836449495258060969526555609398613698955607791458766794689806573214219675396443069584436669967806295120330080081548533) (by decide +kernel)
      rw [Int.cast_add, Int.cast_add, Int.cast_mul, Int.cast_mul, Int.cast_pow] at this
      exact this

end Yacl.Ecc.H2C
