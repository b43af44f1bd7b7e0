import Verif.Ecc.NistHash
import Verif.Ecc.SswuSuites

/-! The curves P-256, P-384 and P-521: not singular, coefficient -3, and no points of order two. With these the hash-to-curve functions of the three curves never throw for
tags of 16 to 255 bytes. -/
namespace Yacl.Ecc.H2C
open BlockCipher (Byte Bytes beNat beBytes)
open Yacl.Ecc (Represents curve)

theorem delta_of {p : ℕ} (a b : ℤ) (h : (-64 * a ^ 3 - 432 * b ^ 2) % (p : ℤ) ≠ 0) : (curve p a b).Δ ≠ 0 := by
  have := ne_zero_of _ h
  intro h0
  apply this
  rw [← h0]
  simp only [curve, WeierstrassCurve.Δ, WeierstrassCurve.b₂, WeierstrassCurve.b₄, WeierstrassCurve.b₆, WeierstrassCurve.b₈]
  push_cast
  ring

theorem no_root_int {p : ℕ} (a b : ℤ) (m k : ℕ) (hm : a % (p : ℤ) = (-(m : ℤ)) % p) (hk : b % (p : ℤ) = (-(k : ℤ)) % p)
    (h : ∀ r : ZMod p, r ^ 3 ≠ m * r + k) (r : ZMod p) : r ^ 3 + (a : ZMod p) * r + (b : ZMod p) ≠ 0 := by
  rw [eq_of_emod _ _ hm, eq_of_emod _ _ hk]
  push_cast
  intro h0
  exact h r (by linear_combination h0)

theorem no_root_p256 (r : ZMod P256) : r ^ 3 ≠ ((3 : ℕ) : ZMod P256) * r + ((74733725485204106633371317169360305120971702399296588640698374994827630452660 : ℕ) : ZMod P256) :=
  no_root_of 3 74733725485204106633371317169360305120971702399296588640698374994827630452660 (76626890310466861426869089647039036757962535851890885406097439786770458211455, 74462945259064871768191128030512052509059297803194871526163573358218695456204, 34768139465301476436978405170953382516735956999154666452188405812258086013549)
    (66434390973925144466073271287821796038003695194169110494110089305650096453661, 12402202686218762177567235911775779164004716598278868847786114277539554646092, 24678849118215552148312087830792888746041224110560601850711771001608500700145)
    (by decide +kernel) (by decide +kernel) r

theorem nist_p256 (h : Hash) : Nist (ctx256 h) P256 where
  toSuite := suite_p256 h
  m3 := by
    have := eq_of_emod (p := P256) 115792089210356248762697446949407573530086143415290314195533631308867097853948 (-3) (by decide +kernel)
    rw [show ((-3 : ℤ) : ZMod P256) = -3 by norm_num] at this
    exact this
  elliptic := delta_of _ _ (by
    show (-64 * (115792089210356248762697446949407573530086143415290314195533631308867097853948 : ℤ) ^ 3 - 432 * (41058363725152142129326129780047268409114441015993725554835256314039467401291 : ℤ) ^ 2) % _ ≠ 0
    decide +kernel)
  no_root := no_root_int 115792089210356248762697446949407573530086143415290314195533631308867097853948 41058363725152142129326129780047268409114441015993725554835256314039467401291 3 74733725485204106633371317169360305120971702399296588640698374994827630452660 (by decide +kernel) (by decide +kernel) no_root_p256
  size := by
    show P256 ≤ 256 ^ 32
    decide +kernel
  key_pos := by
    show 0 < 32
    decide

theorem no_root_p384 (r : ZMod P384) : r ^ 3 ≠ ((3 : ℕ) : ZMod P384) * r + ((11821812636434773334430028259754565712022833414103878146519586102257032530187009463911005323375192894096167211881744 : ℕ) : ZMod P384) :=
  no_root_of 3 11821812636434773334430028259754565712022833414103878146519586102257032530187009463911005323375192894096167211881744 (23037766613497683937702734290281044719364893268180251583910224888989381657771069200037813904257325918671976092329602, 8235438212423615602427778915669574859600037698862346933589434399495169446996583974901273360826717582835190849638831, 12157362177932134139146813183752135342286725243554133716818896354380897714709611791313184492360272402950851405460538)
    (8300902441410358810024883245706595788071887638472987429650051756787010122663664392654234716054658334410824607717835, 36451842499335230207230939190122359435795929611070366073564430331459357452117665764765104949638877581977396150453386, 15550551877492060201127078427218509008503925815996229619149120823729355824416602968196515686102139833725391182697242)
    (by decide +kernel) (by decide +kernel) r

theorem nist_p384 (h : Hash) : Nist (ctx384 h) P384 where
  toSuite := suite_p384 h
  m3 := by
    have := eq_of_emod (p := P384) 39402006196394479212279040100143613805079739270465446667948293404245721771496870329047266088258938001861606973112316 (-3) (by decide +kernel)
    rw [show ((-3 : ℤ) : ZMod P384) = -3 by norm_num] at this
    exact this
  elliptic := delta_of _ _ (by
    show (-64 * (39402006196394479212279040100143613805079739270465446667948293404245721771496870329047266088258938001861606973112316 : ℤ) ^ 3 - 432 * (27580193559959705877849011840389048093056905856361568521428707301988689241309860865136260764883745107765439761230575 : ℤ) ^ 2) % _ ≠ 0
    decide +kernel)
  no_root := no_root_int 39402006196394479212279040100143613805079739270465446667948293404245721771496870329047266088258938001861606973112316 27580193559959705877849011840389048093056905856361568521428707301988689241309860865136260764883745107765439761230575 3 11821812636434773334430028259754565712022833414103878146519586102257032530187009463911005323375192894096167211881744 (by decide +kernel) (by decide +kernel) no_root_p384
  size := by
    show P384 ≤ 256 ^ 48
    decide +kernel
  key_pos := by
    show 0 < 48
    decide

theorem no_root_p521 (r : ZMod P521) : r ^ 3 ≠ ((3 : ℕ) : ZMod P521) * r + ((5770948622056875440470788408314587647333227701191621660399877064689590067246921036108850903087694931728704179094774544727683535468125630900431700802636071167 : ℕ) : ZMod P521) :=
  no_root_of 3 5770948622056875440470788408314587647333227701191621660399877064689590067246921036108850903087694931728704179094774544727683535468125630900431700802636071167 (5556850081864827842302249485475501585472702946772625307642304195702912034363837867267334216347521692509406916620096684956176894315447091116492501000392161958, 2592645775458497527836362227091103884154287512470494672274301275565663408730650270660448980645397363205839490313252565391972848223674401530161387302727484004, 3919380404691066388712376322317341026252002696138380915147944189379687824774581460974855590730258562532022938584569429027963361353339635641909491533809725330)
    (4860891086045056853561103990765776437896461732719963324290057395732751086103788161954116339572232800690457337429123819664279834135875092463554593205804047047, 5623913033336113422386236864006719062755991763864609197545100619433248161746017032673051834216465799515469811516542321474225029959858163827729884161696537584, 1001953287042776430710398404157808389686486783711671042552203031726396048646933945084221650544610877143419486981178519186421076931920775674509717542655505052)
    (by decide +kernel) (by decide +kernel) r

theorem nist_p521 (h : Hash) : Nist (ctx521 h) P521 where
  toSuite := suite_p521 h
  m3 := by
    have := eq_of_emod (p := P521) 6864797660130609714981900799081393217269435300143305409394463459185543183397656052122559640661454554977296311391480858037121987999716643812574028291115057148 (-3) (by decide +kernel)
    rw [show ((-3 : ℤ) : ZMod P521) = -3 by norm_num] at this
    exact this
  elliptic := delta_of _ _ (by
    show (-64 * (6864797660130609714981900799081393217269435300143305409394463459185543183397656052122559640661454554977296311391480858037121987999716643812574028291115057148 : ℤ) ^ 3 - 432 * (1093849038073734274511112390766805569936207598951683748994586394495953116150735016013708737573759623248592132296706313309438452531591012912142327488478985984 : ℤ) ^ 2) % _ ≠ 0
    decide +kernel)
  no_root := no_root_int 6864797660130609714981900799081393217269435300143305409394463459185543183397656052122559640661454554977296311391480858037121987999716643812574028291115057148 1093849038073734274511112390766805569936207598951683748994586394495953116150735016013708737573759623248592132296706313309438452531591012912142327488478985984 3 5770948622056875440470788408314587647333227701191621660399877064689590067246921036108850903087694931728704179094774544727683535468125630900431700802636071167 (by decide +kernel) (by decide +kernel) no_root_p521
  size := by
    show P521 ≤ 256 ^ 66
    decide +kernel
  key_pos := by
    show 0 < 66
    decide

end Yacl.Ecc.H2C
