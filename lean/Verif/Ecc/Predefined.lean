import Verif.Ecc.WeierstrassRun
import Verif.Ecc.Primes
import Mathlib.GroupTheory.OrderOfElement

/-! C96 on the predefined curves secp256k1 and sm2, with no hypothesis left: the field size and the order are prime and the
order is that of the generator.  The multiple `(n - 1) G` is checked by a chain of doublings and additions with given
slopes. -/
namespace Yacl.Ecc

section Chain
variable {p : ℕ} [Fact p.Prime] {C : Params}

/-- The third point of a line of slope `l`. -/
def third (C : Params) (P Q : AffinePoint) (l : Int) : AffinePoint :=
  ⟨Vss.subMod (l ^ 2) (P.x + Q.x) C.p, Vss.subMod (l * (P.x - Vss.subMod (l ^ 2) (P.x + Q.x) C.p)) P.y C.p⟩

/-- Doublings with slope `l`, then additions of `G` with slope `m`, checked. -/
def chain (C : Params) : List (Int × Option Int) → AffinePoint → Option AffinePoint
  | [], P => some P
  | (l, m) :: L, P =>
    if (l * (P.y * 2) - (P.x ^ 2 * 3 + C.A)) % C.p = 0 ∧ P.y ≠ 0 then
      match m with
      | none => chain C L (third C P P l)
      | some m =>
        if (m * (C.G.x - (third C P P l).x) - (C.G.y - (third C P P l).y)) % C.p = 0 ∧ (third C P P l).x ≠ C.G.x then
          chain C L (third C (third C P P l) C.G m)
        else none
    else none

/-- The multiple a chain computes. -/
def chainValue : List (Int × Option Int) → ℕ → ℕ
  | [], k => k
  | (_, m) :: L, k => chainValue L (2 * k + (if m.isSome then 1 else 0))

theorem cast_zero_of {a : Int} (h : a % (p : Int) = 0) : (a : ZMod p) = 0 := by
  rw [ZMod.intCast_zmod_eq_zero_iff_dvd]; exact Int.dvd_of_emod_eq_zero h

theorem dbl_step (hC : Valid C p) {P : AffinePoint} {P' : (curve p C.A C.B).Point} (hP : Represents P P') (l : Int)
    (h : (l * (P.y * 2) - (P.x ^ 2 * 3 + C.A)) % C.p = 0) (hy : P.y ≠ 0) : Represents (third C P P l) (P' + P') := by
  cases P' with
  | zero => exact absurd (by rw [show P = ⟨0, 0⟩ from hP.2.2]) hy
  | some x y hns =>
    obtain ⟨hr1, hr2, hx, hy'⟩ := id hP
    have h2 := two_ne hC
    have y0 : y ≠ 0 := by
      intro h0
      have hp0 : (0 : Int) < p := Int.natCast_pos.2 (Fact.out : p.Prime).pos
      have : ((0 : Int) : ZMod p) = 0 := Int.cast_zero
      exact hy ((rep_inj_cast hr2 ⟨le_refl _, hp0⟩).1 (by rw [this, hy', h0]))
    have hne : ¬ (x = x ∧ y = -y) := by
      rintro ⟨-, h⟩
      exact y0 ((mul_eq_zero.1 (show 2 * y = 0 by linear_combination h)).resolve_left h2)
    refine finish hC hP hP hne l ?_
    rw [WeierstrassCurve.Affine.slope_of_Y_ne rfl (by rw [negY_eq]; exact fun h => hne ⟨rfl, h⟩), negY_eq]
    have e := cast_zero_of (p := p) (hC.hp ▸ h)
    push_cast at e
    rw [hx, hy'] at e
    simp only [curve]
    rw [eq_div_iff (by rw [show y - -y = 2 * y by ring]; exact mul_ne_zero h2 y0)]
    linear_combination e

theorem add_step (hC : Valid C p) {P Q : AffinePoint} {P' Q' : (curve p C.A C.B).Point} (hP : Represents P P')
    (hQ : Represents Q Q') (hP0 : P' ≠ 0) (hQ0 : Q' ≠ 0) (l : Int)
    (h : (l * (Q.x - P.x) - (Q.y - P.y)) % C.p = 0) (hx : P.x ≠ Q.x) : Represents (third C P Q l) (P' + Q') := by
  cases P' with
  | zero => exact absurd rfl hP0
  | some x y hns =>
    cases Q' with
    | zero => exact absurd rfl hQ0
    | some x' y' hns' =>
      have hxx : x ≠ x' := by
        intro h
        exact hx ((rep_inj_cast hP.1 hQ.1).1 (by rw [hP.2.2.1, hQ.2.2.1, h]))
      refine finish hC hP hQ (fun h => hxx h.1) l ?_
      rw [WeierstrassCurve.Affine.slope_of_X_ne hxx]
      have e := cast_zero_of (p := p) (hC.hp ▸ h)
      push_cast at e
      rw [hP.2.2.1, hP.2.2.2, hQ.2.2.1, hQ.2.2.2] at e
      rw [eq_div_iff (sub_ne_zero.2 hxx)]
      linear_combination -e

theorem chain_spec (hC : Valid C p) {G' : (curve p C.A C.B).Point} (hG : Represents C.G G') (hG0 : isInfinity C.G = false)
    (L : List (Int × Option Int)) : ∀ (k : ℕ) (P R : AffinePoint), Represents P (k • G') → chain C L P = some R →
    Represents R (chainValue L k • G') := by
  induction L with
  | nil => intro k P R hP h; simp only [chain, Option.some.injEq] at h; subst h; exact hP
  | cons t L ih =>
    obtain ⟨l, m⟩ := t
    intro k P R hP h
    simp only [chain] at h
    split at h
    · rename_i hc
      have hd := dbl_step hC hP l hc.1 hc.2
      rw [← two_nsmul, ← mul_nsmul, mul_comm] at hd
      cases m with
      | none => exact ih (2 * k) _ R hd h
      | some m =>
        dsimp only at h
        split at h
        · rename_i hc'
          have n0 : ∀ {Q : AffinePoint} {Q' : (curve p C.A C.B).Point}, Represents Q Q' → isInfinity Q = false → Q' ≠ 0 := by
            intro Q Q' hQ hi h0
            rw [(isInf_iff hC hQ).2 h0] at hi
            exact Bool.noConfusion hi
          by_cases hi : isInfinity (third C P P l) = true
          · exfalso
            have h00 : third C P P l = ⟨0, 0⟩ := by
              have : (third C P P l).x = 0 ∧ (third C P P l).y = 0 := by simpa [isInfinity] using hi
              cases hq : third C P P l
              rw [hq] at this
              simp only at this
              rw [this.1, this.2]
            have z := (isInf_iff hC hd).1 hi
            -- a doubled point with non-zero `y` is not infinity
            have hk0 : k • G' ≠ 0 := by
              intro hk
              have := hP
              rw [hk] at this
              have hP0 : P = ⟨0, 0⟩ := this.2.2
              exact hc.2 (by rw [hP0])
            cases hkG : k • G' with
            | zero => exact hk0 hkG
            | some x y hns =>
              rw [hkG] at hP
              rw [mul_comm, mul_nsmul, two_nsmul, hkG] at z
              have h2 := two_ne hC
              have y0 : y ≠ 0 := by
                intro h0
                have hp0 : (0 : Int) < p := Int.natCast_pos.2 (Fact.out : p.Prime).pos
                have : ((0 : Int) : ZMod p) = 0 := Int.cast_zero
                exact hc.2 ((rep_inj_cast hP.2.1 ⟨le_refl _, hp0⟩).1 (by rw [this, hP.2.2.2, h0]))
              rw [WeierstrassCurve.Affine.Point.add_some (by
                rw [negY_eq]
                rintro ⟨-, h⟩
                exact y0 ((mul_eq_zero.1 (show 2 * y = 0 by linear_combination h)).resolve_left h2))] at z
              exact WeierstrassCurve.Affine.Point.some_ne_zero _ z
          · have ha := add_step hC hd hG (n0 hd (by simpa using hi)) (n0 hG hG0) m hc'.1 hc'.2
            rw [← succ_nsmul] at ha
            exact ih (2 * k + 1) _ R ha h
        · exact absurd h (by simp)
    · exact absurd h (by simp)

/-- A chain that ends in the opposite of `G` shows that the order kills `G`. -/
theorem order_of_chain (hC : Valid C p) {G' : (curve p C.A C.B).Point} (hG : Represents C.G G') (hG0 : isInfinity C.G = false)
    (L : List (Int × Option Int)) (n : ℕ) (hv : chainValue L 1 + 1 = n) (hy : C.G.y ≠ 0)
    (h : chain C L C.G = some ⟨C.G.x, C.p - C.G.y⟩) : n • G' = 0 := by
  have hR := chain_spec hC hG hG0 L 1 C.G _ (by rwa [one_nsmul]) h
  have hneg : negate C C.G = ⟨C.G.x, C.p - C.G.y⟩ := by unfold negate; rw [hG0]; rfl
  have hN : Represents (negate C C.G) (-G') := by
    apply C96_negate hC hG
    intro h2
    cases G' with
    | zero => rfl
    | some x y hns =>
      exfalso
      have h2' := two_ne hC
      have y0 : y ≠ 0 := by
        intro h0
        have hp0 : (0 : Int) < p := Int.natCast_pos.2 (Fact.out : p.Prime).pos
        have : ((0 : Int) : ZMod p) = 0 := Int.cast_zero
        exact hy ((rep_inj_cast hG.2.1 ⟨le_refl _, hp0⟩).1 (by rw [this, hG.2.2.2, h0]))
      rw [WeierstrassCurve.Affine.Point.add_some (by
        rw [negY_eq]
        rintro ⟨-, h⟩
        exact y0 ((mul_eq_zero.1 (show 2 * y = 0 by linear_combination h)).resolve_left h2'))] at h2
      exact WeierstrassCurve.Affine.Point.some_ne_zero _ h2
  rw [hneg] at hN
  have e := (C96_equal hC hR hN).1 rfl
  rw [← hv, succ_nsmul, e, neg_add_cancel]

end Chain

def k1Chain : List (Int × Option Int) := [
(91914383230618135761690975197207778399550061809281766160147273830617914855857, some 23578750110654438173404407907450265080473019639451825850605815020978465167024),
(75359724952757581356787150982223137069297282952438962440225639443485944634025, some 78326491967123874224362281304759512665074728887330675987424595890631517857841),
(45943445683006731186825332954307741798023455644055784651515817260596585653620, some 17085032827004387069244612030992560943305749021689721634877472339346992274590),
(104320766152101458017978152285934782075731820019299334234980417336612151291922, some 66925192613491715565307350450587919320571576652621925145164357901958092639165),
(42715320421518789494492351657042605291453531576008558919371402681289347653086, some 91247506773722602368721054428735348988022600883707185984055025274935144621150),
(23049338652333377412839204312310232791684979067633503271904820467640486966366, some 740456309188189641826653840278674474617083467613709773170036470660121179735),
(76640394864850513244331811172054646840794265428790679477771145053062334180217, some 19376156939956163395050980623022506502980954077812225718865572401466671609435),
(114774958785952883755889914904137305972781406478845276740054622283590976374664, some 34022025512947937227049130302796562434802002648691937217567996978831778806204),
(42874159254110033916322357487314738322608653971032317760601344463563971484824, some 53048809446059290314154358287521831667956301015700829612537471287619332320167),
(28956216290998835086292948377618886250603919590434446674210620734525644971585, some 47216531385091117804509031714180441444147422409185532312257791563986337189219),
(21928477301902517428685201727653129198319148968898214053835995558214107300843, some 106111565213816149673486050503609778516505830288560976642080225975430061279550),
(97116181750751782095397913907250990776025637907799028917914796082391112360710, some 3914911496457911260728837485167347689734444045717332986608501393981963625334),
(33660183489554478802487779037084711523701638732132188819044862051901978700675, some 13878991331445519237694935533947492977455727850034237889766290845593122770260),
(6583733324930503561619354833982005010956778996283969929771075804752511853401, some 101194947905031818332950367129187663452436764100246932288358022575233362088532),
(98272392835376225437232371259273530283799247188985470922043861287956178313469, some 84949379820282629738754195137564911122085988342912776141934989745009420672326),
(77212809386437078729964531657381590775397520927313445249734189680587853253634, some 58579272639621675277336658748435006470118056745619798674442360457649091057815),
(101825882400748293228963288265135501619246684284569356958101735551883401744129, some 47712847518060721616804157478042076420383282837360111506472221520838442428549),
(91751561742275624460119399980562294150616026285464451632185267692977433267666, some 86205299848508066812467934271881556499101402999638562317971895711901839145434),
(56076838186739458784668417490833896813021651238604240933895383880715302730484, some 70993214103636414955528549633777214847119900792879835111540605149594752208132),
(64897969338243027860186272939497161151820808613204551311219210268612210800974, some 75363738438689603484645827743480358229110154860911043785361670726478899169917),
(71717261364866556593242294043897384015684051692327161357643663073184709207984, some 108436058733771642429628246510197458809051635171288465822145275417806085369482),
(81321031237470175941946791302397494298759003769512057943654565677680278617076, some 97528736416860815419158274014776062559430946594182735757717327971984780554060),
(111757731106544422405425633092010817578599316584468704020660928213736976534338, some 5960909778725667887821361035649626438067094149289578009931586057773049312456),
(10111566461040274188045710012156948836876024027209415192993513218683810637894, some 17656841010626484181223116706410434174921945190411764075834199366860499890270),
(73035031354433202490795380181056548288725290862863111882984542081774823630132, some 107265621075250200464377974398389965880051864841222031836701446937386362124527),
(54678531930567521785253212233788536738020669329248358703889295646740835401465, some 36849826107465601015131891499853063955518321727249917824774682627057250949642),
(65457575906251370813914696460401115737824825389807239963519720283708360057065, some 18067046255493006728889745223598970687807931504337448094215001810168623377426),
(107539149815770006387533360972292239789627354581423167426875127226670276605216, some 55338470772353763774621111615816709993877589764102484471012557022792056540388),
(23641361923591005027473977333173854988974748577235484507444654847959538610288, some 107024189187304544577337788033823001198536996899656172519480748806524388504947),
(112406845384044642734377172779342346314973335207783746339297623056754663414941, some 14667800227724715887358806136062348999410269152334521924467642422944574999162),
(80597378076415095744874233543634401468473436034410446802688234394844613589202, some 10940249606998188980752294765484920231750563711385922506863550772756041818739),
(16940236047980639056626584750059721634414255535641278586971684564106483868840, some 115774637589469748276927510407856697262901798605325709750159010819345192832158),
(97340297263054436173552834885082425073784412107729539777547563152678135730335, some 96131165312785065152378822971278657004198940228568245828560354940363032407306),
(37935761479797775454141730259931378600155426698015157776735976312727315848742, some 5716685918111480659432082708008822636331057727195289573837648056538665777484),
(83402172751556404028440054329480372774396579528988708418077967624422411510107, some 2208932047592243972625803836709331682993944347876083135356446476945434116313),
(35261933058601178176676326385200080366084628692806981421625611042958393359247, some 66248669549727758755449919583644534168927558015161142937662023449386677234416),
(89789816448386390264678075752153210743139393608172368429110948609261243984396, some 12537816870347016670257837547676914727841112676536733614303078699253160014708),
(111980368446643597138268406684328554743205777566322616512217244231692436047877, some 20337767216528739908514692419479681467219214886816138601822224494533163330600),
(99470872198900628614258985849078353897954214669451645805395973202010798217392, some 65471335080451696464359417409942095813419475074569379928611070900111988130308),
(80386515139950247367294363619637578520697032583555370962811023270326495631392, some 112071975571572382516966447737678881092888870022420203208222279291963919734391),
(59726423666377219931888141009965082295351797953015693994618849878334399940685, some 16427937903653216979407901390446271144697751001728789869505596785436300955020),
(104022910950073796931554041171017183251343999117043526491831815977373948779206, some 83331769414663443115263062342785163182666089339972988244972957253519701869926),
(23449789155176650020177760884310997501864534044483467685945414332325998895276, some 60180169624597315807854276280053037402214063958443878148023930505203621212970),
(99160226676826092877061119993356700232074199526428834106791338309464190201892, some 70613903445866182099324569902615669710832411922832706758397002689048440777613),
(66978061426476820041557055526308420641817991440213875221904740773908294855985, some 78774123017910044313871985683710509727405451016522822318186591288024359452955),
(94805030485490996038388455147707613437380561099316468084872208251494694535374, some 114546832555494144122176669497411707825972499516286161296032805558350938439193),
(14477036544976588874640998487475066335571912485887639856629332165080713772599, some 75055846327470827235496276190642497262515917159669682577513238301064853221061),
(6846253734025478910618899642492533465897377992818284285118524305037859965387, some 53603196031846110219657160905933593592517678472221280099658968437056921656196),
(8948776799135289186317943127729789091859763544950199145188672261085371458894, some 28053635857588503684032818063909160772740574811411158828226318372876699157713),
(71873696758479921362897789089657655549126391225095523279525692337822189041616, some 47377050995333086973000937844488070722245069418704183442989738794578388865642),
(115605816174124121816821783365314683308259554755120576425364837426348195528944, some 49324047521032486556528305290375414224185254769167388723930292029269477740954),
(26047643332332930500321206030441592906402675699478640350515423382552302445357, some 3188302718685516567469484401954412053740690458641268622834934032588565067798),
(70319107982004576210251992688142491869786973879034326052351180854553280294491, some 92755780827418924210541269982647766553641116845623094489227329139262016458156),
(43621897188494757380964248723170434773257905654482204793694984120528937851043, some 84751248707869091065471242844815063112194194021634622589211779879653449397793),
(59840508552718390286197042190338832996308102991387290197765617193727554808702, some 105129589103995114171953286043463993560482005193181881022626563536193450372306),
(64127424690366853070091165051122451903291075634722200667227698716854206095855, some 48956534255048797085601204349560015111394656058304099769505667051577579771255),
(39174627301049144618188301690768019442419257800104813625388798809144858120325, some 13464309846186564699153253018695815033699745002700877542583480787414304026249),
(76548826957749829150142366448670715489116281565045020884840446690102797928, some 109118173950982649732719998533328659159601453089682467690168667827192642751995),
(9709667714319792998347506366560471302846956905498070584264105536661535219253, some 65986138479333211757684406114287529637611679713678143365126749398505994498029),
(91567726808188147763488449553428616262328832673278194691274913994937259231895, some 50807529732865571419578119485966803416458730346735302926876275033816913952932),
(67231459941475518827874033888565232698485605557334652223079691256737014390502, some 12726321136644199243835240660056274187235939116060508077259938469814599143276),
(60626615577815612677064412852089173308027002773432651993581644002337822281080, some 36625177091613076544420917432159732755741787983006509261185190174459836528247),
(79047051633757188067909083410291286291502401431086802052784386083322164976465, some 41665388894228397730650493237836434547107051536060319983755649378680737429588),
(45271701547783011272310596335834142308948491849902830442339017873487681394025, some 51842138988248633386333428201710527005155172357012233069325415791328246689380),
(4991037151236011831524014108271706380680986092095087429872057732892866049758, some 44042589322452788599607545404816215665236115815336897184824447664038175716707),
(37307702212203562047866625882874787795236727002636116840474633176018078606526, some 114406714283076790062609247666147497172592945116458188010218981818304753099185),
(38668378727705595167693360835957852458778772205647701782046275274524195310979, some 94708224906631446379099526497029983250162282748436784204146681646140128746583),
(4417486266849415455526950287127890463494499150128499498805974429600252410564, some 113253325380590607403813303661096127079245048811782494185186131847605565806943),
(102374972421610516702535714831766479746606190469448312892095070378353003657876, some 15525203464936594705025898988540791974126654324250366980151023744014594726205),
(82792432588197854460146568423034704537208407181415136454181030639777896945003, some 52045172971928114382485279340118504501225443201044885045229598473963732076915),
(840136571804728214686861699983479724959482274912127073149874018910718591015, some 90989777507679127688661337190094465208373344285201924106941722761644008040937),
(11514595689208989555608645438178644660697569399786500427218405456982060222241, some 15229267283924951033771273026710920740200075812621219215441748919385320190737),
(20271306443092875241097644557561379810014174593749296572999357764943253347159, some 42022527816407968676134072404539054592797633684154225382827926147629743468660),
(100824502891323408874896559050755023455353459902001395080596739299340282826094, some 26696538329843003004539564467350371701609874656077278146246482193319979145302),
(1216820313654058767891673016428210130181892728910070086250126302749106506379, some 57367007358754988517022130221340717975939300274877534651083132756767902944492),
(73842967111468804920441556143206542939832012235006588677913003355201948017807, some 87235732339398190841757053525619314465054288132725352110857040592798599072724),
(53639790052634859969170880201475325183981595870793483453095198478372573756803, some 3835507023051183988013969552602533898748364452024674921530057154125936182656),
(68806731971561202354585587438770767024764401493089968337562363419563953056289, some 107052582606395261250641206968693337509554900832235614174588063687354801960698),
(95543181364732933520591334009381245235498928519466239112117270768810696790747, some 99268941745139988233639486994370403114457185568032611521232791701205417271161),
(82531338096428676368565475544649679908750612981462426934422638225740068454272, some 2330889388789409294780677101902591100275626138233224864080053495281005759604),
(105484880471442900400836772065994091243249353890525207683576075993291644790461, some 100434673180186325804040116944681115611516263923135679140374527420441735772973),
(6695168393099767330256444416361842241522756168812162187648425240027117391494, some 111731960538689861798756408722590636812458305370309815729899039750821464936115),
(16152132345840619093716580461964294355381918819269090864731491447015141526072, some 23497039948784586441027116753543066313882953754020187081555660192264208634990),
(74227992570124173924602696290271300447336067135888721364874604921135767631286, some 60246613608933191212847607490149284861402008857457053634747253916150549745668),
(105432482485490896632920815959351268718369520091586239839283309573045113095922, some 60135128303932643147492773636375741711449663187101730808877484317508010864842),
(14279727273508910009295063038797274295683448793660249436701758711009301672123, some 62750802154680610758438348419132450989202332469101060112130716258116429952834),
(60826815505038107182372360376955010824697507880348410850083281759345753395325, some 51356871344653768335728676431541542172574501380762570006283412668373853867407),
(45747707831141582096410967266779431167388365557223011881367879301005783006836, some 85622744483674369614711782250274203088679645091880411132581865502889906605940),
(12307268330988403178691497150568816179747289989787635274626905997162429051584, some 114955159523079601492574529989393250553815324427930840264501809241781998329382),
(35183248918614575133957633804472231915932999357182301677433161004312066932022, some 23891083437635741453251981519596951989922024666704547606533774478123959585663),
(96929104648752224919483976552435715858630440194061483905125213724507840778022, some 34073927417965726677035314312583459467813453967952074291340999274936606623497),
(93267906541031184528921786133744715374106445573244204589756360999220614402661, some 80710572714602761845138975729552496999524497463351155662638510457403481439561),
(103390859296941745193310211781191880589834204629842264018705342188573839458332, some 79631748591474078768845904963312591025297590806679609309758295364435494038800),
(90245616049924159550708177051381688256333008004600181998019312204088806280543, some 53146820078951132420893280038096282008007679079343079138670021713506657117011),
(99706660944977411638399789138568052577325187310726345003318648359001952324937, some 57682720476732549690787262753576536648978916245212832770437835700823455501045),
(62680565912321205976050636552014679656252505124568294840958259867975099422846, some 19041851617070241242308138705604655208580743837847349228657317151764434801422),
(70323293694306173208896653296106174944986330092319135924253135525234978663550, some 90374231550199076566986979629875872273880034179485830977416740743684839355660),
(107286405003769122454709014897754153044377332869603455711713648366179564161508, some 79340244027846413958657933950002229588162765404761844608247295128132921206411),
(11622618310895955795800261669143235260899593601591513659156745358754810663681, some 69515840441252617228682146195042635111703122486508544094201337567604335403793),
(13294107655956651751042702944810532152554114344391158312589462961708647945251, some 103666786753563868388485997495526156334777455307932600024886444816730882341934),
(45120575657670384098524555641733480862844931785967432288435423530590248769255, some 113698133022546925500208918267221574998927483417161535100817551177956107127410),
(96433244700541887928288936058444030146574528236923732322059847639891981934991, some 44679508941785014893387419827744325968885766676405907480761423528907205750520),
(84681722059382736346910892711902537039502332576554097582394575860319521675729, some 109009525026464142944981053796347442275221891272951258110170253407931573573355),
(46523941505224109225139796515845075823476249185720262601239830216953950933383, some 99913121074535656111310402772841855306593634105983611228428644821675682431664),
(99433416184546387737625993146229983681602956409015636480432279695659880387692, some 54638964144622713581107396021053357210808425994002545144685183649786365367887),
(114448925032867676816447622117406551350136228034675698183783585525882099640326, some 71726251757266877839281539187924546380411841224823193514444286312865300357248),
(63773418334466873020620627605724618065637175490578388388337693926346821438732, some 104951086257208963823271595957848406173588602570430724455556682644169581555629),
(61017392463748745842520478283897116010946607858360945464398247196018264515931, some 1498238250875767702096392050953009092656049897484015096599965756396479228131),
(98471596444466505613281446738645688337049963084419641174750188986302765558494, some 43821612780852592513782481828264013804255523053380388865055386917918459045140),
(32550533479452572216674123072504911411752632039295088723105448122137679641143, some 103303475516828485970572501444707877687350260075577800388977348139841175038505),
(78654064139819235697561138468470562173358090495501379468533363353159701300476, some 107487236850271786564648896875357332190484052750861526295414252527515070352256),
(24104302567917037440276118248048556433026669087841534741921582681973231061175, some 107343280139666778921986116776940544882318864127772251747396828343752181297016),
(78661523711462803825090412474270214069002340110283204360157016163967140171138, some 19205810430381614068392806323874197855474832287961592871877444661241811122665),
(96722744499496456127278284675502881829051851639215597263748639889550211256264, some 63059745880292842771606642420038296841111641946913676256976115448933140955449),
(50522164190882540255423063873597649626172051352967023719615235700102913356746, some 91485526554406434892579698788534824225433316105880496558872568884277750127954),
(99757593317896415988884284053307209113995432098065556036983303567562144170112, some 51445899467250289689597323270810114880040251906365056571682013472580287056960),
(56524126086101841844492997806612329466187756524609042897159593446337430210107, some 55267580139633689970717543493156431647664893124595163422054316880200388696116),
(41925140987643249237137721515596479684587187376899299085974431960938004543666, some 40580901823952469980750328098529969149388561692095270645637783904652680291420),
(92305453116202015777194135241391164386539872345398331656455832679056867298108, some 64140218924697296969768546029823249180301706551744368117184090543926206787345),
(18455393653522642602035768722699092367450756629256684672586863474044985078677, some 11593518418037177640850168843868854100019417667030325208796678511031929420296),
(110605199533457349788962582497836771074695920285648285304783552134921455085932, some 90629864057883882985455753949724908992789771693681933592597314611731869144451),
(50601671843241685896779830067048435002931436494415381819965621018889777460514, some 61835114638428675262542516977073777445142951967339924000537425683246968272569),
(60184127914083468286403468376266418547030019686968388903913720290309847171542, some 68526885909123481322717424502779700342499359875404410777296238622523266936687),
(36534158084738540130132261991377131776122632782198577900931429936577754976101, some 71803920838110081864172320864152616332636007861088882677825101045524958738203),
(84202681464700200194113385545260246070138250748785647721046168907581595951714, some 27642288589643825223626553344809815275276095601942721386465741281040129731865),
(1037048192695537634571026180385127932107582444154479260113194802037496011863, some 30909879884176564205367820163869550157499556320904966228063108013528260690319),
(9871471953671084396564238663337772222599868074113967033114603465892428054179, none),
(51100646332634219971023989770755424562273106572591960939074432589241721958022, some 36561425713747821737261491715741555095203958978147747161119077711020054198101),
(54975288636536961984451369014739917655287785870776271399638077561657867714252, none),
(33310768342321057208576672776715649250778911557054641140546570991894229022246, some 111305741139439348983912218022877727626546126425174646789611479663037761697915),
(53607507290433260896322565125527133106248081533221965085872053254243192837264, some 69987038082448382552134284797121822750257037103956803962010985682341075239770),
(2028339160496300612337793299150449368909337891762963985527227687215772040588, some 61426533157369847905356751346018818419801201974762598422834443572613346870228),
(70573379340187150211957636157177859751645065215674658660667446837799933573386, none),
(204410874903041854044744549191187808107480435534799029641151878949948560844, some 106003985372715502663760222206138941712505347946416999716257300817550419437171),
(39439673912964853657398943031766284087239727612278965814864751734282631222582, none),
(14061699326108934888966259076194174011279480526632307552946886875526684029145, some 52164684850995544565355712743038733733182482027562354926485528452841825794810),
(103155597552316380107527195915139969047129849176354855997842165738749314313162, none),
(61141773048877486284552746341532917725702419231747113925781525140331410902441, some 69432574494980025239797355845884971044353670057497908564930718474774624892106),
(21546527209833510666751843934912848964090615694550173679727036442268754554700, none),
(103349370625356265532945696786405279836480893480448648805857526325049756335613, some 93034327825936320364032515874127835891056695767398094839714523921965157083927),
(36471489693085283335556272281038474309323177995217228491846613915618321809402, some 14792131586100552761714979364312704611710680433139596435926104371791505051269),
(28750539787140139622318259724726215506774690586901378698895558108379022304697, some 18331985076050529722743022502010272545543879722256869126883129820294315150996),
(35251375409790291684023312788528564728106221032549442809996257165504232340744, none),
(97273360491702747816499104918845186874641381223962903568614039889074560441498, some 4389400792662806044066689670352076013990042929542676966516241110245061917865),
(17402666542532012709610771467470066579413924406410179645561984104491880740315, some 91061248347661422192456233588860749712277627907434522778656078193375087102395),
(104868597698239925182389997349581786086329429705105319749585204478787620675985, none),
(91722209775203460789601905514199263535486890352739614273897589531277396531758, some 43490516335049723224874720905325866491248827922740368364309307390292897698352),
(91080452421056626584991315506359977989891598176028255743609372996594852343483, some 14714843801115850961852497432666827079402085580205675781204046050370643654937),
(19131130733477544075922705187606280291469929534442250257635486888961258335186, some 25797968908128990851832849675910032236040037155034255004752050923589393245715),
(61578912555628069854729977349749938300475327707525752910089087530621943964204, none),
(65356422651886831998359129899583509616993069735777048787381858305092694472436, none),
(665820514180400351495377406996166764666229416714637459727468389850333144750, some 2529951617659565495433702602336503027721413797321464177914523848457947468595),
(29945052301859116085582634179850163067204527451371752841080576557526626164224, some 90548323232954264012605001125068510702422225649793913984114239879061613138116),
(75168122627751981754923516259138819927757514130835635235512274787674986066351, some 30316272067569433602950449553347525813744300607752582378154989172547958059368),
(83154668184003123543242979687566769257817982455016455369323775846019267657106, none),
(53216178729565942571131366360291178924148638259267331416449670899335960075321, none),
(78029881152787383051697156552250769787365490268849915162809679575887005153469, some 762007681318221682389855917837234534576341597679778924561864492453874395253),
(46865096984094525156844703519724808133956710660143204193969407348397433688602, some 25135884449681972962399095157293002007135773813490266832829974369744000531750),
(100980794143675227042697181981072038872469575142308093128180105277123392549821, none),
(105889489532358723225738723485228347703484902129462697949321626159628277639876, some 67926365350358633491666495229449284864641749732122336418414011746788239174266),
(107600059914865757181271546125754367762896619995809441373318605232799157562733, none),
(44838827566476337365819698783707501183183710124957382576794060436977968427309, some 28090529635634237798960087067882189574075418541948377988758450884130421112804),
(26092942697525917324157688281327778140200998560493493668230859563153950110483, none),
(20808729380277759347716423807856090793675544936357642421672620591370935360224, some 10838954655989977564712132627981981773963815456312216558944598526472968946422),
(44178742538275532145776631440198966669026405305046415304813328207711405267100, some 31742252661961953628640819428671773021586811939804077513395231243197100712482),
(24488789076646532488077813557834412534660400372278903392951561132223706897601, some 62186524043872753862221398559433122907542921271342104659355133001690844487624),
(33589577483109281488041133411374175511360341504994896715634992907245091311040, some 85534306258734523633600998814815597766266461409249570975450682265855238585968),
(114409215533222412594657962652575739494831837612159615786419958511243079022511, none),
(2065014969746591122933871157148694298817977051599977757252045453614872400474, some 25480199620249503725454222760420962760694956382209979543662620075357443940037),
(20879258758743964859259838804306357609881343887775258923331860098209940992123, none),
(79801616227592445364603517853818882998485076100004582159426566424130993413209, none),
(81699477807659593625882125996931269078383498397189205426391618079262682200006, some 24998597131413599812939745713577763300989073018445941664946140143232153091027),
(30092363347566606943312526292771457306661537123465248576955400100855600258465, none),
(84232827077255871460690373795452879233363085382188298816730797173797391353242, none),
(25088107310009533157202557302346993429841590601720535638721241684456273258312, none),
(74471775620589417338879590557107514041202553903098608117391426461353113853867, some 38745353049548031630641092748589367110927142852122174854880183436232612173061),
(24902929536749969017227251666163854456870170084622153122786762001631362987567, none),
(36551831583676070168529965571944234437367561780709291605118453083788297058198, some 85715357831411397801976009889087089300176605795647709767223312325419685121358),
(9917874802603623402955865081437891561615480833518666378524000788974436939786, none),
(71934006109638353106369423043599163775879997448664093504113889910851736937333, none),
(57192136672621081017975109897143534161636022994711792088074256112543770480999, none),
(43538165419054148799236349939062795928142363530190641348376412970511861246782, none),
(75368610709009738863190490125753945904741517724866348521815522562814719716842, none),
(110555480318333986221803768773580886862650464152651801356495587450869158616981, none),
(100269491318921112485411662991197584106278555722444579744903163152089720180627, none),
(76901874908912270877532619652810848730591620850005124821891352025364915168113, some 114445383411839297138895770415123052271431350016764411590479445102983714245232),
(48192257308994993871561914929411393439989720227138874712063694557213478437569, some 88992173658717367849595337391148714306158855255283875613982229231617600666968),
(39073457552751538240072962725382835598244559856638893264991593103335122409305, some 35564606756063491814381807586974173306561709187369435732250931586209565119501),
(39336589466963425500274648097297714098251963758557964605049061844111124138081, none),
(88074313040584464847027033121138929668853318134222841457158217393243697374323, some 76044838975331824289230351914256605548342796892407487587548488894414708523719),
(35123271668837748102448186840166896444430664161855544064606388599141457872102, some 111793882405434915044668329490022876898555721931059630554798930457436959704815),
(20000388610095735939008100606804074528825224027612676370698023064685629557960, some 36581340463868917200040038404849792551645803102169839587277401653523351244150),
(9232139802527099674767572241602104794105621910704326348093687447471641131741, none),
(19654799490388584149215224378794122702797321804179944911111300725089748354351, some 72460020208923000045488231765454576215831911638050825260821274698166214550528),
(29531022995653037909983257392472584576641388485688199402010612148632547395923, some 74904830528450329371565789966263063994536720792548749159901877926827187374555),
(77980366705933886999270473273498199576589659043112471231135502579088557575282, some 75559367306761850825707094499996940522405534426419820772881367377260892459135),
(106807005471513747556940260253600115634051797560464748342580926232049876790671, some 37745934894020998244368658431805656130817628431890635059885435682437540808590),
(28297510235914680571973467699377703600363475167863837262219571615286786865173, some 102348654923169203332853905376160302446162392557849617735161740086443104883004),
(101356856399177891045507544284079221415070676548382176642661731978913929793999, some 44912282011292126253424253110828841158058314176550642492710038434856437248852),
(62474010496279308459628606350412030110435635566398663488127189286559973265332, some 108104283969354328564206994058862353942411192580639273115528341028411716479368),
(727066100119929749597267026072115272337755564740140437822249784601929603926, some 106182803214697961964163048404777636623882303230108107911160732215457314403786),
(59911796929963597512708888980820062965011495747671428159620908265915026329240, none),
(64211969126718993820704383673723894701870615898246583401989809998504345902018, some 115503537943439787842815266767443427561843704488688848396577816590005278841758),
(98075499485973437165102238458432519569499716611092469822472000877844910676905, none),
(29016179592866849324037841313042854321209086988336678971008518294316044608928, none),
(105419086072886021218675470509592712187947775139899679581963570363113204557698, some 83796447784844066223576259340044425136653799934492461404751979000544886379387),
(4392040150480087589695285249129649127925492448899155015511460152767958546251, none),
(26011926274529941144142876324161127759003724526089309788232192134876815842835, none),
(24942206584331065826527248912675134241210249105109630422476207501037997480163, some 111246802190341157940618691881146588241606139849919776956240114416783724950440),
(89818938694149722342474140739796258895347451808196868204684150897985481162011, none),
(41174658342237690213396237444510113144651286349718486911935175316923784828493, some 89049921794890993494757915687395926661839856658511832664446478041681276896245),
(12429610962052582278577086382604445224051758419512331256248408343145562033473, some 92803065723616603533149421483665447696220532128902924740958137559731758298149),
(68874032820381636633635734068414106671435871063249717543309174477443004796514, some 24047916302909978083341152554927442831960835091916368037353028504607850979857),
(41903272131130800550276056835210412443336843485338425168476324085043892749969, some 67839408235303749662375305259955764218365685033375578653097514650694920235183),
(64340870960459426754967630105120689505960653023590671268237277934435503755026, none),
(26816785396021199493334952473969348621779908074983815004838129984881163893417, some 14104299657090677552439964516945094855191326990664524335220133239109090030563),
(44671622558928358301689488965028298086637593474810525607774261515816999740066, none),
(68950172848667915002128334619292203655723219371349770355325517763969536850391, none),
(53058853770613632768839090192316439991330938869111149969043094415496483379689, none),
(27150364718181406873354888074419920024886368542438683128994702411913714927840, some 59861968209134094444018695662315955608376035762732443223782409185665722770503),
(30611184118166673927976897589316539697030665411372079693109925146382405908211, some 49971312477662490697653911057108426851255090889775687544489180318025320358063),
(46460046702029378697988854569817795393618067467419017017789960434916132073818, none),
(47242304218372099177113838068651061281998642554510014847487981901564783307460, none),
(53254317426408557082111826031507325670556158979607117877356116208710053310820, some 111209208734266220636415294526477024778495469077516376388240923629156253104),
(42559434544526028646786250726722923304763323856809783191198665001688028472344, some 7924616453064644246005047751313736719918570207213323770393979196369640750430),
(47814775797811008035381717633875950014750486558256779639057599158276250064557, none),
(13229968096782949393440140623909413195844092914333192180299959091556808344934, some 105423769882431166234572860515307501371839288075235312507555350105383543567687),
(112275204698392100546090017049416844950092096037250600967357177131976952269540, none),
(20517562239303789033074579058035324693538695793598253665614466237865108872872, none),
(91090224081983655451850474732644234505902065648938057880459545720816899623694, none),
(102423539819550730227000081371892681137800682288540175568582820714354925453411, none),
(95624569959859286871816726777271430547442799075233957424096731985652624918766, none),
(59231804136275453926295038460296337947408738363802238539868386690706341430338, none),
(98564853247266037730354579686197326653743751603070486505602734602585686203051, some 96594065513478085730600499522130124320463990616918552103646396413628891132229),
(46900468023706579398174179709290279377920341194316198703485188042554130784639, some 57981969076346083782346285299264120810126869171532838889748806366362098289431),
(41471090203510463782799132230937395612615263100057355638733492450340714343501, none),
(106127649014467955747866497174999786365586628799999890619441317550145101898219, some 68879954666366515303508605343708680882077487098383880031801087996247584099274),
(34006520613133390538275389065284499769214935364628292987610955629117046874289, some 1062744858843338393352154584129700114842625194357111907050485510398951414825),
(35278516043341409362232276512027994374973967185295879198871993300256187059355, none),
(65281689579098518387649255742457836607118248683630970557760332106814984842062, none),
(71007290510795814282765092236587719657630188071412031238789336941961334914875, some 113400370937518160776592728961171348385366849938839131742590488370298774388011),
(79523183148463261420068884681035561781091183481322429062265499754768524958832, none),
(74779360851922729060595490219140400307539671470914716919206193130373557598355, none),
(10946584181021060276480125635006028432236839602023153355479743136032907923969, none),
(113901437917859635711340203501456399846013208809046923232980466637044715746565, none),
(105157902081124904963621958590440678708988896903574701298149660183899847269106, none),
(50186322624666192221804266628562865707616639791524999099991432476610883260478, some 91308489138856948454741763757226086121977416420905885361179686733650767838222),
(68990978147819585816346844496221983036120734083696140657111133045711225963878, none),
(2389570710643802754873584424574204143612124328305539259271012241884272892096, some 82467441763150666393101100944583923191392472975037324487640182199532843316433),
(79012837169972970237668561568565754559297944966293546224024891017816740131160, none),
(70220479870539443005644996838493025456729253460428610923870836584772623489441, none),
(111618936691348985583574296138361052868412172634243856723226619760846881451200, none),
(21550480456693215703323281409812001762131297502973689598570636886626034031712, none),
(43593449136217447544352503463618595374195372678159862701229152631761017742473, none),
(26965839571063133429837562686253150625459476579747687149534297236751445546434, none)]

def sm2Chain : List (Int × Option Int) := [
(97089084182832288391840691297101644113875969642515613231745221902176049284016, some 55088434939102924313645001710853179036843747019492623795559127008390668229021),
(94508942618302712517957683040814436712309911559279707472415869444901742538608, some 44764248605200327731110202207438557803802440363064761170349284430215573128872),
(22826575467813560110796977516921406722032361223671595856993768327570299014072, some 108678791760404136245176684318924758752967667769268937488686506356620284840309),
(63775812302673556095708428738225212872016877888797850938973085288436275135080, some 18117611051047392493686634361416499125091472098036243513008799194031064050900),
(15871009196912762184891302358788815409424184271410262688722030251995584903515, some 111630308239010106100189542480047001920865969478289417442125150917168675873436),
(857871995905843548274999468062506163966577545465472725698154733091706889308, some 38736796214253444388081932992829777273291186459367475643718414673019229908557),
(64557864468522584315998369993793398200063516481043684771625798845684766366936, some 22087507944524663731129418655261412481871117183700700020188776330407880806077),
(49494441151251964465821984244816089846209882806941293141735587041980681355995, some 29612438709756206455099850769152910484342877257176308021842067459548438261329),
(52261962044986324554814568494138634858418050672332205406745429419613085631933, some 58060550227737339287951921428575312278566391397788543393560753113646379078461),
(90569916403014571833520032308207188469732085367847763688613560431296430685177, some 42614466651472412653120462433964650560273473075306213185793765934273466344758),
(87133803516570048841598911057258711001730340528109011252446977590437537809881, some 35790482804897605684833787001447252700085442500493712506343955469402125649946),
(81252269131049611728626949715166510325879665845673214684366219816186907753424, some 100195838222511681557167612770753312071682338535932489729538405541436711470318),
(69646708516623510542933816104640026419817336386382915018277015848288912492366, some 45628095356398178307883095326272953836844619940087368187897370982854017196700),
(63533719392482835805310708765616890627144858561959111363538158570754778751293, some 115591277937386072282223142595764864776755082525712847848967122577729510365802),
(104930831399631295350463308136030641963168791107776288858421645098072973275472, some 102256339536491003107666820640818237872595432388603809648288828167439585421632),
(7347029652722350864577061560523083107120800819743749871959967984058584414499, some 102591746402265335184507958306214682088370614790607555755956746145052263995391),
(81628974622897660345265505996265429835979385410733207804027957982239936945916, some 34735932925378133371656686424050213788118383195490139159827043035502861255577),
(38977970367918118322727786790584252627686395738261048627107866608508370761102, some 63308855271370375530060887748155644838536235773393843875737012946931611800786),
(7705674725234788652381081920714711338197749213929475960684649819943150608882, some 52726927183574172216110936872671762160750841604446606695907223859989436201027),
(114036030777267553704969922091544720308508026645277854208823975959241748886775, some 26668351327356855168787722962004663384969577214085570500123151180251470335785),
(27898535049801966631284394209940437638092373430734071448545351816065370941061, some 19874578537836056311732729732901297746785230084325523376231139831307689872285),
(71714082143489760241428179325878433130486105441812848022390012843343543819184, some 102151694271500544866637650749049693465105273592565990976709795151577257107770),
(106281748670266555654286677505578275020248470844626344167941395846521412347045, some 57765567292168829453694514573207357014406480322292252341374716815336858856607),
(20441692829316099855774721410240852941280182042637731818702301172325887146589, some 32716924367024564543758252103864134535455481698555364027842804457611134566267),
(39572712086940455295990595963238123718439721026161084203396371338616859495203, some 31675638331516623271328491077783825253493357178526877963144245580795152262761),
(44472588372082201108383649000916825373916437215965530128151573249762100274563, some 100578316208620481103842834548889319247382336262048047651189896502978956018950),
(31559299774114135749378364592384673657227214245647037107786548808548381290055, some 29145049990200398879700270179588637664122229215531919456459457639000356365610),
(106948681182883125781136064703572093230396278176023487495747063129379103630413, some 43037480099994549736790896496968129376172592590610986537306857771390807497330),
(94156053281490261195833710347006023955986844638877513787923158088790422738881, some 84583776611882497129272856214160087132353331370341701891215324576026221209942),
(1828001231996539577239173748801554811153462327535289899881074305628823138232, some 22045450207792491201401923894211338839313204738827255105940861573131031387689),
(9535209148221597903532292906847571870142136684543868792650297906840102499914, none),
(33510514757762044827548692386857147125385459358702863376326346599153285694252, some 62650949584016163171836520347074765739888924481552976351742238996126082020499),
(65097452541341573411910681653933102827673740397210886232076362071851847608959, some 12381927376531686996029938853731319984006557742970441344714134525500399072258),
(40108993040509976039495947420566070531349544488476340594394276379075733317034, some 34996376052511223559506635993891250667428171906092302573682792633666098392886),
(87302549378692518345332909558643713191557512051418308924544020866568840273958, some 42695624861966841514657806741988456487132809844089937199900749714907631162918),
(60738571734022651865197206550579381164542431498297407658590588745690587330405, some 62290513667312361632412961474607792399374863165936352217363733668671001758523),
(62066604846811619566241389124334556721475554933918403630723560184837111537272, some 97554277714709138706755224365159860912622045395757854613963829847016834960040),
(110909248529335888872282539705783898496742339888582961917435386399334292621215, some 70797279217769117745083950626695498533946643648168829405522713240570393239136),
(25094909965000000189118575701335452142688165437570657643165835242816837732891, some 89431222942991216939652952641449650922509590086350811353162151598903535396076),
(101929433990322309918384370655949221974723377395625401691876191013239278969458, some 111261661044739782068129006536292014435313307103557492756663717833062393549777),
(105065812485766897605572315024652428631368187467319610447354721704644601160965, some 115058379195292233952366800703129016100633424610587116604788446157324569197628),
(55068486082189351113560863244112682586888275108724654277368304406348010936857, some 78587952322267802565542649828406887739654354798144027482073665556542431327228),
(38046403369543592774064944788466575109081664587833719990647594642341344968508, some 67114864642757866236730983271788744758535829978678826786390515966686960393292),
(69558130767976865253160414536931574935411291731818983829189372720706669153481, some 97082414549359320096889480018556826305160295388539396413742138045100876007049),
(74710565635457683384290766169278815696004213556072355144027052072127494625068, some 90857060811629833062995043854818222113359524482342127089432476787510662750475),
(100641683384397563243017832888717269799691337004333540792022920102681324626606, some 95345825934393597997865421867148517711872956024636619510344668225589716118645),
(9490964768282964438725010143555064644649649092937640706248134911727998280021, some 72759900126056345330543454311234393550576632000537206143995260860459858143869),
(76621935084727478216417562220362358462117760676406052066450772789382464812040, some 18078020588531049582825250387206671643108928139314987030806559203954308974831),
(65176411010280081771329297366453514018802202990340936866917302967013748419607, some 95591575955066966692919837340405640235477680614783117918233079981861859519453),
(56642562620372395310279315186245802972955328728055850140131255462524800326127, some 107872153701051649592514257069923958095940019818537677791838243106469107133718),
(99133067260787302239716588839050760523609821458297376428945211061846340631736, some 106567835837408498454581657793672224303909391686444174074516274484064491125025),
(111758764637709176228965920430258759532181309651789811099165970823521372729812, some 3957144721866355391878356928992058311534785872679595426571431395358082198141),
(1385257112014718795541473738072617318621293848379423614068485740690303479422, some 13616416854296457050845116341598255161066468015151650579936823566251827338841),
(21154620663188124461425070798083487175762550053227023460185894295850595616, some 103966714971491245119808783953962494822978843511512266593299180303544627305770),
(15118173191288435613396558899273842715260100709871659180671453348788684129787, some 99751623818200558783625047764507019261620325141781257705243866277331409220786),
(91686488270451427547812957484933780067570423989709805739901691118293650144618, some 61869253394270700035716436327267300273853948857473832169098239463234638936067),
(106043262433515820735907884996304074505070736096069033274068480004457445988776, some 72912167497857564393666394375069059190769015902509501349072953380442228846473),
(76338693644839932918614216728738201709581905723209839748027381448984798297766, some 82851629084995904513766977242399126364379215116751968306514664121779710087135),
(30869201681305544633353155427792144037243184869901643625836014462495321906191, some 104822434899144552616273014488771048911605889519463578723606864483935098206948),
(28547257445447891985744335596301896269163474423194010414244945349408393822432, some 113120853681095267947886450404431548575433305867532791713106276127720633321555),
(85061723058538840717333884689309972939537656073422444509649153572169628155760, some 21084107794630209545487402765658575394148227171746417523027487267798421505864),
(78242524365036915706323811677249705451243252801870282506698497657312136798308, some 57870433149364323032358911080139366311266043278415290335916908764722138623528),
(67390531145648324525319283069279817265402445020357684570097512417390056619607, some 47604543338767583568158306655508800315868545273420462901700727236607659110006),
(29745155343804071206157209920231926635299908616743264588634912834304554966353, some 70085754497704114929173979199788322460951101778807103209993407360729927732540),
(93250530623377439143388193751939158176877426857897835527451921987542064217741, some 8838010552014707093658045363517332453015361554498027061815499956710291208641),
(45668948649234044073612576373371804353498308939146704689813843081150703882338, some 83454637650130358736483775153097108966512732230399456540775251936612033342282),
(82625530603587374274635037296252559810685908921333820771998834039653541589886, some 93711871173261418600194948278827056657327661904129085085602238501247017905293),
(14881713029232079601226455952198107272077483085599691602934244492697654217660, some 32128795702069863034147816303590407885732713887381450613598714335247725622339),
(71950554017479571875617424869645523566623662578201790921425902963668483502707, some 78280017447458820633875737438530531270519041966237605137889185274517377410139),
(94154137154699129402347364002009633462580326278532851482892301594126036817722, some 58847546328780951727712008812977262538401550060773186093238088643796463490328),
(21902121719241407907804141928028314697904975869527382689516613475833866747635, some 111818924464848170791503246629764684508902011263416364973156209102982206526865),
(103213195861468711918907289790763813863279299164464143151400636272339373969993, some 97423371235898774140502411107035384761264197281355348396639257166194863058941),
(107278318907239848519055355876054866645088493471479721691785439395937571610500, some 51386742086110167212406537081095490150329061709953645408773324872716621206471),
(43239500862790203028265542130400904632174725905017439938561475467230730004417, some 77311182189320191652723866809830594662658284681806135458555813371760202754592),
(61588970109145684253271850151574601298185622621808296200251651632816549985563, some 18318889111802477912000408628778533829158445802753460320883309977441316992639),
(37778958489127570590711794001491004506432929185139357248715343831192609436921, some 42362985794864709659904624070356088709282096446871559376417953526854373924265),
(5277148103641265743925209308105453077252503439972013234614494377356280428356, some 86553562782352271354690700713882311266618118037466348271733502481755154014354),
(14751868792782177918796035633994228553874783776032913007044662721948831940589, some 59875093195538269576063428519036743970289586748558891525384654228563376282259),
(48861179781267582987749939170397529535103762381929111422342964303942589532166, some 32555671577497310328627253932799344676212194178435927330430224633844851712828),
(98811053752033766993376347447088247982920776437455705331358461994300363562764, some 73738810353538739382417033976736571649633224413216856103850507750527585785679),
(71357712446099797822171254380831385167003458003493772997874079440138043187752, some 30342058312023628003701512170197569532958872803933035149911445779191905597937),
(103091978794944798998729991779044509532269869582843453956950829266725871627257, some 60110570740992513097068259302077039830016233753616701386624207138762876331788),
(20818280937360792343559112060456265377730977053096946652297943345065123294602, some 88722162803333033630395222876465845802089094602392753961066066355926496188095),
(42002789124898688122865494013847923515978965306764196036736007242152279914104, some 80222540924751221147783603375463254107765890613666503320602387223636383843599),
(59395963946746886160822464194645103526622612979874973906339440701858974061543, some 28893648416085130321109548398960058654769227055955044224963138721712431710635),
(29721705720550193452593792733140364543053115258697822985573153945081741715386, some 107892192677634385062381384886601909252720668529767352395836459884657231742673),
(26379424533175047397484231064226438406233483429777421589506614043596994491308, some 112528953857948892807831605631190944158128616324058121502179520462210016284316),
(42926087485327730873206553837553100058192385851800527436523916004004090814473, some 2096434756711821017057308618436814024223495623022677555691810108445042979121),
(71697513851071723663619468799046696402572514849326064439278432916106167219901, some 31303874266870520995052988610957846622136129969230929791936003123269967341947),
(112670996507461919112575706711067725239516522397307147143298948904115713647548, some 5641699531795759672744941708457385177980591500478946429913214691795117108390),
(21420331641549785798117319392011642614700313501759368159216109921492899164696, some 78826518359530094873668260109487686134362252890519543461057016817344300147251),
(106008874651633927976716439503490525318407717177897288792719735578316584884930, some 104741098989744529170129858303044327288497050348153468753996396263713099790323),
(80750951713515536629571662897075052971492247559063793103679046837893001193951, some 95157218141862883895215770610452125357453249322199180727538064358241540938063),
(56206819199043741889248283097682843335612891710965779654678612349285071679862, some 43795937921828867934016038441359797412296500013069394623385648598228064176199),
(108769555080610070518948764795041343700335863928172494061922256692076297036020, some 56212923815585207778029359474157692801771481185547925819476525566799739952785),
(107958516753878622169664252056404896048915407044202571893302220582345509359605, some 7365856296270603356128959381321949169647530676087781771776546318121761968566),
(61699390287729143691863668147570677880626571611603373838164208730997908956204, some 85394709945335215902437401619333471974776067919860852181838661796661772376313),
(91070850511160762111449379889569571098043738884354096708433200442389096661298, some 101426585393317036408651590009079121180816992208932645473202687626006468374166),
(81970537347812453638287098994417471355105599414864646695485236647007992141032, some 106324477282862268639670432827530819706377860094088108504858728649594698405480),
(97348661138127493136737664626956056035361834848571505104957165982199903326652, some 99072632550426751384854853202479856441363898786218483852024062432083131546892),
(61706982818705560258241527088195234364960945691744774305667736548749393026926, some 70618878118902747624170456584962677431529201977284404991471958100197824739703),
(13465976278423652551458611458249644867002675805746636350906568830056051313576, some 12829630206665897353550643069192994095586655602827116309092599938834007396733),
(10271368122245418862003652276690797428862302842790195931283050391013576793011, some 48714469080848485132207184309102650102191206310604854375852219476425953882937),
(70656525279217289778015602753408857089908968199344985339720288471875105446005, some 4444016122281442173920612438222055744697325326363964918066834203855828939097),
(97654214411177911864034624186256121873188247859446349520660873006860865204029, some 88316537626682741993567148701681242963757427276105421521486178549653926912833),
(92052319182107106520178355018994889086006935148173946761368462932735545797984, some 39201907621219927382150357245804839858732538841600710740791502390706552615264),
(85995267010058511285899101919590704170916427485933972459590368079771343950576, some 51281576977487329146113206213050572018496721315260909429349969504293669589237),
(57775172074520936935705024402584026223914566172431434378886039398798132126898, some 23190446824808718806259299749023615479129959587685622564764504688684772341998),
(24009578507385952279309503635390493693933774876362280125578714739238684363589, some 88610694778165842163898682179153404483101364150166666057271179623414026246510),
(53382490588141152539177844530585678324805121473350418000120212086314712547768, some 101981838385246812610488713012619085404754812717816382185908353211012703440531),
(1017628607443030638061318540454221897808451885948230077758619623039227989612, some 18608430977964150263497651997633841571410724825290824189776847337644242191163),
(88159911740851634302997540085088194154127915408059797395232300763047816434961, some 78407658317619035028026193710512565499854255702373194641792279845591283054615),
(42891958269554890820215192855646099052711558308836156752897674588830230736032, some 56180975207294608323979766054415562727028192692648615071567059893370323683262),
(26381818384447636031149713959900660002401181859148055891630118931572101361179, some 23814058213299480208698667643642816565052139296296716449710346423090332526458),
(7211106150194256143913498671812144268909787420375275147929373809434344154430, some 79032203309915344810850391406911133464627530824178510882262101503106111993586),
(70047188601438802162019394868205534537463402263420139085834944338410565815036, some 94141030724463385191233148997529173218736784645696588172360736242071012967892),
(52627537157530377919063218216776784217489085260626158969992143513960304341184, some 84249738397547384428857633060577039891173609894896645486004518193882427076889),
(76547917123559909230207686645894795463730566902238429827315460041613049049084, some 101052005651298303980679377390644267489844321537614943410486907148657248084557),
(66889185417083234764113688420096260053715571819891542160229356672945766959944, some 112305956013352809297527462478371092872295214625099456801437861798193485106244),
(96502902677072407254134141675173184678176525956964400909392566789712397220922, some 2044925513696124352776430873568247202488732137945085655347854180063355482530),
(81906847662305129136976375013600018263045702622203771246228468301404169100045, some 85890855457498881531433352778365802579074016711411295593480290971049019507148),
(24007425095401181667156400611821635956974580053643213216363640631062165760006, some 21787948089554887981116716528439372131883145623016072919462084349943095075279),
(10187138360783597286341152142995489527298055668056136163096640370640958286565, some 75188179889300473693225572397953722886494030647991791435170193006904301567394),
(1229596679508005954913229289624987103311744043554954344001936273278583701638, some 96903062478573661653771714735803530063059333574587104796968117270466817124851),
(43801993940651090868610425479140036736691683264585970640972766433692125258401, some 72351557727910742967589421917864636981488211615678039557035007703556512818335),
(32944810354952388080469339990855183705775137081609207756225705778635857371265, some 110413448448996140704571595531113581956174978243481656061147204612014601239882),
(107598431859787108039816731656681408764128433412673535720228846615583472017310, some 26625632611287504178394524585891710089290152635699035817240488924537695430650),
(12850439500090267468575625374276524339670214714913086352095676933341834118749, none),
(67041714963331203319643326025534429812600520123244682416957954717072380466796, some 99620269646246224192837538165401123284166508014118874794721396211022573721370),
(21156485547713806568064731703460555022560238456893531746099096776601368819621, some 69682141730894392515231817531388653063413242174134211286965611585658749845245),
(18977808718794282317415085347659166040640221147012018283455868372480878663437, some 40429014268622336716738904761059724029879426561337334499753306864003101232048),
(31086728107790960930543312424749783219193311143790942990816799631227992378727, none),
(83972002771924342220795000599703003687349525724362308662410037613448131810957, none),
(41455603728734642061440246305700924678011273181123272275628455350235934352653, some 2978012788188291979614172504073390066835428951266575191108823690301120681239),
(17518145420397015627580759626733698755371379761992017454007692409039968340142, none),
(55419959431181744204531305726685077224363746993119886430757284506904350848562, none),
(50570601126125980337917288451622605542157421621709090708678558792263792616696, none),
(29550447542252823887302513714204845225380834180266497858946491825920579668993, none),
(92983846241501049791141074202869877791399810529636353932843028130909430791684, none),
(61747512699356757229492265458655038745311333026809112153121254345441571591759, none),
(79465051971463740258676815355190230061822073928569530176868881388332192485641, none),
(33271223869614792263314056246950761010340237879676857403245833178596985613772, some 65828510271231952875702249887827813531161115966537281438254988069495030874128),
(60681401992132160232050931742513394108564638663696971383589396085538509249672, some 53409285589778067861048048905379602893812975548371855530027903481467936648969),
(49391644672057968055290686975141108875655835602878529784599730029518498948515, some 93527731406508839754830380023473245178858559939528115164041052405815027878434),
(105996466228951818443731066715755003060098964768948239006930588128801919675549, some 108391348873003447126464406618943564418576801463505414737222369682743199221175),
(69626984253061809178503721171311027436123330647083500368573763782254375242712, none),
(59712150884159794249474007429691757995638349044116727195723174579939306976202, some 76977959374692644948845825946473158202871517535109250728075345275220548983807),
(105353423022037406861145386641171670766745442315583110357333796521314830111073, some 57380696381926673190547810015646603164799319315079616800713716757404048787040),
(33327598366920352736499702355058448306114212951966517610472834360655918110351, some 12119226142871042438245407626961150784930521443466920957012520253366656321886),
(65018928601621637011388628229049462814648000269933078268214849635714593769176, some 92371061062088241649357117215066202795532464849738307001816029863111732533484),
(97126909270108185620045512930605374301717083799830940373155783517987763235146, some 36652542855607185309053669957988994486770414804734275323149775847374598843070),
(65546413521648448596417321044873441806907345901311749141642591678526289059249, none),
(51067915979099924753386661060125693707386121042512932902417289791867561929338, some 50922113830363223499008480449835180440890080128196206186526203195293840285248),
(21213900649992152337741116054135623619779867302379197030701287359876089514176, some 59492343681504204772200392130825613868210472472893978206697001607244363594678),
(7812448794124250958895851609011383602952429119334808054744916231377343322564, none),
(111907749734311977980523705676163377067953537733338555101744674200864909516530, some 1141298306061211046987632233447398321654250102452365427082668221603576578197),
(108389646549713887785779303254085442257454885297348454046618953065481157686936, none),
(69507025499793854723712536777670111865157906399505682005022695210882925139129, some 31333366352018877316917517875126934473247059307267323922639405543469885171121),
(84611989724817372903829596088808620668481723406201558730308428929947584880684, some 100734347952103513666598147505547724588773109220926767170950384131939141181699),
(49717228083648780060583014917733678430449241692203231224196021902703261959330, none),
(48227470522725682407670147783995891635704330771711655907322414038967348112377, none),
(101254047581054742548956062488249955575489365960115047382607150380709087665644, some 105500786101443603834649706078476820403828354192259251118135390394258658878278),
(67507558442417502591359482657677171884911051201812461672432001678022234015533, none),
(44352748563593206586744981911091803531427090461332373945861633578310539340853, none),
(84027760490022422140494889431349313652327876959409359943767690646961220217173, none),
(102844789273152939902450541357702213946839415876604039207029162001836676426547, none),
(113464290208396347569472194627547397821272174564819502083433222822923173758271, some 8652534172742138575550038611830211738963256252907269422198613022408961345875),
(82818382748161450175228714308872296607449888998457373470098621899423007100611, some 103098086305248260086243742292463841099934033284354952094144320908172737028486),
(14895180186466001863988098924345370618924989443687177385610656298660259659882, some 52598995219478480603676042253759754096753752844411497823978094228500797216009),
(54796238410925449851235713961271197895686573833676156035947796645814531841758, none),
(85641517359973983071587496090385322198321658445281446210466820862656478078076, none),
(38366358894643318090951483605667712113835678186250435379616536553907513045159, none),
(87273343817840300271439356561975439427938756733965513411015009706643566807612, some 42126467722581256154606757463870879380618095236769342943431552147584565059970),
(92836568717647730812220482484720873701238546954902723920820761675050135900459, some 114413585535949614742163764635169923604271578138681054693271541915775922085179),
(22832050907999833896636690728095578523065757710594190299263509315720010490603, none),
(44570955154597518124231646132228912650243657581729764734789590316801860417440, none),
(98436602607236098398164904051771519931901108325866151255807941063699544648957, none),
(103720499799361289559907468467018403955783240031215624804811514885472999564768, none),
(69490195394473586726711244770654382893710095951552754234605201228068465911334, none),
(10039036416302477797950635814375948171341744792706664495546544762337746205962, none),
(30196675979660002709132820774471598520996743949909111403749794802944460016791, some 84666300850888537867180490700810570786268251226018759670646962292995118603849),
(19328383448261367683469417215053593880501687683477375503835172110943580275183, none),
(41084572403376529173181604006221092193171419377344338083531827735689043850071, some 115462349455255320062549189869572337846412448827474832894116420911571089350925),
(64986779146029710746412338609215171804839531822038375562230254331479769883717, none),
(72103942542168405369124807127394006635522814998454459000360514109642107342810, none),
(60819265425693972552051201217445035513484501889938286369552265718339857086220, some 32769319901143077930437492841713329033516348385007051727950820152273644629322),
(24897769215569705591554365919935290435664340676930770154754834932556370940698, none),
(44337981372282581285655560285497663891260738035411574023400724914780745466333, some 29764787327425868819914255663276291887146469167317325744386934311051787076938),
(57769682561123724369529438292627278794485331253336195328386632658720035561544, none),
(108159234511058446963778048711605221652865450199068214391079997561638331698053, some 89211707498408074223106357846122665502623195790412026625192943652689088011244),
(56936954628339730279234400213276909885187222479496880019444564813467382252227, some 36720648657319501527109609641109387887735662381632625536219354160099840374713),
(97112368226996515015562530382744336645571524399226306067040605446416484350917, none),
(51988100301324311375785163707071135159639248677609265764982592256819716704401, some 67353974974971203699318339601718712013756516114091178870495490821662857742185),
(110669951590720356927145472908715831068518796670910894823150476150483064504554, none),
(106332759705114231738468585414802496645473147976963412066357580534155769833275, some 97324200088374244089367841372849673785575388464605647482163980610128778906056),
(27590462969749437011411447885775825182006545440739777652042289310518805618843, none),
(9959999836294334877978644161696496023779021288187357477420488268258101502143, none),
(26478751257151137556034193573060745280067587508071130212411396630269171981920, some 830089117437228597682814019021582597282246711608996645807002062821471633521),
(42789647030159524590957405738816499765188874527379840500311336120218052522946, some 105706992978521997626012943218906508122636990156582530615420920140165146121021),
(21972467716119602410061540188619903796729197698481259908929967870803768135806, some 60032363483261296437379910154348515687941944109398761759612256325680579899182),
(2552754371151995628313197012357239896994007786875424492014583631721003063231, none),
(106950349762675782129902209080933746008024595138096407695612249394175929719566, some 95540905322247646381548987572812181852887960439522957391642081373922052450705),
(17317752967400881553169493710457515652427399591241234088156757369707223986258, some 70556872408452736842735112115201907905711916091290081427331708388594735712000),
(115631544490355985414263629539543267446140677187558988771172963238757739543871, some 76510241027856863116298393800922141488778137010094794504030353617340926084741),
(55479029790595385876118899045981029120605511851352637535399565110425990849407, none),
(52643905091368617899741149392481878629101841337619786051993810896918093312838, some 113249919801372768650862338124908581037328609506504529643000280334527492876450),
(38840558280474758272650465165017784491320629817451415029885069572617211804734, some 24059107406864276626924537910243297315487724811490247250268113640597681339708),
(21777385560228490209547040989100943770393953311082254237176699759866281731240, some 8832160827574689959564993258929848249080536525242418320861509693251776345522),
(30095036869435271273342671247008967028150898817083808837529721587227423132085, some 12306511901316140502078719161491443515818765079160767582967165869106437779384),
(64889065366735912639654114912644684955846475717804903009707603040711727227973, some 43232243771554775669667505133909970606170384686360410351787265181820624805415),
(72146538690978935761104765714857895474736563937283156225546934316224085422406, some 86501285720992743287735107947480426789778282603970487265025806038680010654558),
(10085702277605675187453454805615574732441951775769322756761800840875956672710, none),
(59552943793777089289962734708187367015701382419281970607638964305512638826182, some 61702314668949616743913080187373733473657483687287476757055984866265287100900),
(46533974958810172293106685077822344005342373254457132636706273754208558601790, none),
(114065090234517744724815979512603936429144812012466527713466068530921179264139, none),
(35836501532830865415276380226690802435072933635807239104731436369943900849572, none),
(106017660733345493726827839651986280393023218780752450561552516967071117967183, none),
(29123116463548908548678489015423239848376060609935792403504200118873974834745, none),
(31344944678999930976647126807030688351923120919639410732328417582964900623804, none),
(109425278261829942055505735026934671420394863434194656195307364741846806939724, some 1375756648362009244338822204061105365688785149043203531919828781696595264919),
(33832750374073939916879237391092791170983137846340181531451710205116557105358, none),
(70096934886537591177689846603453052744561402009254801741769535351738530025364, none),
(31557774238810844403820853121608631369863084414956842654592548446053985622735, some 93115809563244686560173501751570407527727818752430667033392870310144461198450),
(92855231075189596689138842988570692049358642102103261380183468922299796935420, none),
(14823014679149308849829956202115319206568182864825271761590393115954629849771, none),
(36716832127426337766961764771800003134453587790151492583317560941117504617423, some 113490406944780833766145455779523412313704583325934071539884698662969414806904),
(30276684574314873629578818234162727301089105939626017253809578200093509251249, some 95741512754874307190145743263602825838644331112620059755062487279016700295773),
(101355223516459082135798107992168595156633028541781280021783757937573803270251, some 105744941013050870721614873537837715057964892220190595229659719355363292718868),
(84426904985974513641483095885330234563212101410256725113174078851746949567984, none),
(101296005826992278918202990205226559494897981532748171553766151326308430234054, none),
(793712605792296141700392163313081613682859793471090466715429260080374755464, some 14929183345400703453749433190081497348950857126479065651714947256181216432856),
(65496279369579987965579371333348293973393401406231768979840602761309852720519, some 6732131000813614216604997776644626136005578985043866928170791473850586841510),
(113915895471094919520888853326067609873679102111638144459516693481472063313184, some 70274905982449569362868351670037786576278499565111361075482380744296792644244),
(53708000812309777104050000890739516548928868134750824995698998032830874927931, none),
(3763725621608328606972417268477631443067907129696789321363553233395281679338, some 12115095653341341916738740499303206655625855288111743790045081472774731797151),
(6510592599310426884541532482684117846390682516986021037494128919745917400768, none),
(46141416003036796050193196589391221316181406053392918293709527155500413068705, some 42217865337279441927848148634933108116442106484419482198510234776217773973287),
(55920230879011879252342048925300525640431621540456076655013659094698083002833, none),
(72712830819477089478139253167994146174235882087294115258924199436628523047158, some 27253193816150599442283335957108895935511275153825330694527101660161551845030),
(86638416308785766958349185984328874657740030760476299934103600476437625825541, none),
(4148365488316136252519267297810927360877143289802754878161033879011152299236, some 84880867295304397006967052926170147755446241536710299001969034076913686948853),
(78368474914336273339341073487355053935408379341413274915971648234014180720201, none),
(108873440505164848562811651226348093917101211844788203798821941074852647285636, none),
(59498339439516371408486785759953136601312006523853354192786885940477677451328, none),
(109056088994654550216993145594230474477803772165098339743999631376956978114986, none),
(47204061932982940443597300924991531232162278632124624839139996046694500331272, none),
(105283095397808991464184901851454485846629153854513639045552134613211971670016, some 95355864002407760222168429836359106022976563897360447603052631366581654482185),
(50610340467549931281481076001691484269419014165965593515235832156440505536068, none),
(59269415710292136063202984834842978258791540997622831738665670803717725134110, none),
(9738405693871296551793436804939222004473956900583326373653809867284307071453, some 82080884181749314102074677127796087098638295384068842840202222726993520867217),
(61975477620233983617894889918712353767139167156762984232479254308734385742058, none),
(106645144430134263136312850108590177928463214031916866154989153476035266744589, none),
(24507572041772389710868690850682294020574626455570754219227893733352171275732, none),
(3090448113725600850211432997334339595979586599862055240188086505949736203993, some 29204341325930091587684848614303464190613812218191625010200876666941382541260),
(106157188115583277675920941102853681443022525015634580159782257443798100264933, none)]

abbrev Pk1 : ℕ := 0xfffffffffffffffffffffffffffffffffffffffffffffffffffffffefffffc2f
abbrev Nk1 : ℕ := 0xfffffffffffffffffffffffffffffffebaaedce6af48a03bbfd25e8cd0364141
abbrev Psm2 : ℕ := 0xFFFFFFFEFFFFFFFFFFFFFFFFFFFFFFFFFFFFFFFF00000000FFFFFFFFFFFFFFFF
abbrev Nsm2 : ℕ := 0xFFFFFFFEFFFFFFFFFFFFFFFFFFFFFFFF7203DF6B21C6052B53BBF40939D54123

instance : Fact Pk1.Prime := ⟨Primes.pk1⟩
instance : Fact Nk1.Prime := ⟨Primes.nk1⟩
instance : Fact Psm2.Prime := ⟨Primes.psm2⟩
instance : Fact Nsm2.Prime := ⟨Primes.nsm2⟩

theorem valid_of {p : ℕ} [Fact p.Prime] {C : Params} (hp : C.p = p) (hΔ : (16 * (4 * C.A ^ 3 + 27 * C.B ^ 2)) % C.p ≠ 0)
    (hB : C.B % C.p ≠ 0) : Valid C p := by
  refine ⟨hp, ?_, ?_⟩
  · intro h
    apply hΔ
    rw [hp]
    apply Int.emod_eq_zero_of_dvd
    rw [← ZMod.intCast_zmod_eq_zero_iff_dvd]
    simp only [WeierstrassCurve.Δ, WeierstrassCurve.b₂, WeierstrassCurve.b₄, WeierstrassCurve.b₆, WeierstrassCurve.b₈, curve] at h
    push_cast
    linear_combination -h
  · intro h
    apply hB
    rw [hp]
    exact Int.emod_eq_zero_of_dvd ((ZMod.intCast_zmod_eq_zero_iff_dvd _ _).1 h)

theorem secp256k1_valid : Valid secp256k1 Pk1 := valid_of (by decide +kernel) (by decide +kernel) (by decide +kernel)
theorem sm2_valid : Valid sm2 Psm2 := valid_of (by decide +kernel) (by decide +kernel) (by decide +kernel)

/-- C96: the predefined generator of secp256k1 is a point of the curve, and the advertised order is its order. -/
theorem C96_secp256k1_order : ∃ G' : (curve Pk1 secp256k1.A secp256k1.B).Point, Represents secp256k1.G G' ∧ addOrderOf G' = Nk1 ∧
    secp256k1.n = Nk1 := by
  obtain ⟨G', hG⟩ := (C96_membership secp256k1_valid secp256k1.G (by decide +kernel) (by decide +kernel)).1 (by decide +kernel)
  have h0 : isInfinity secp256k1.G = false := by decide +kernel
  refine ⟨G', hG, addOrderOf_eq_prime ?_ ?_, by decide +kernel⟩
  · exact order_of_chain secp256k1_valid hG h0 k1Chain Nk1 (by decide +kernel) (by decide +kernel) (by decide +kernel)
  · intro h
    rw [(isInf_iff secp256k1_valid hG).2 h] at h0
    exact Bool.noConfusion h0

/-- C96: the predefined generator of sm2 is a point of the curve, and the advertised order is its order. -/
theorem C96_sm2_order : ∃ G' : (curve Psm2 sm2.A sm2.B).Point, Represents sm2.G G' ∧ addOrderOf G' = Nsm2 ∧ sm2.n = Nsm2 := by
  obtain ⟨G', hG⟩ := (C96_membership sm2_valid sm2.G (by decide +kernel) (by decide +kernel)).1 (by decide +kernel)
  have h0 : isInfinity sm2.G = false := by decide +kernel
  refine ⟨G', hG, addOrderOf_eq_prime ?_ ?_, by decide +kernel⟩
  · exact order_of_chain sm2_valid hG h0 sm2Chain Nsm2 (by decide +kernel) (by decide +kernel) (by decide +kernel)
  · intro h
    rw [(isInf_iff sm2_valid hG).2 h] at h0
    exact Bool.noConfusion h0

/-- C96: on a prime order generator, `MulBase` returns for every integer scalar a representation of the multiple, and
two scalars give the same point exactly when they are congruent modulo the order. -/
theorem mulBase_spec {p n : ℕ} [Fact p.Prime] {C : Params} (hC : Valid C p) (ho : Odd C.n) (hn : C.n = n)
    {G' : (curve p C.A C.B).Point} (hG : Represents C.G G') (hord : addOrderOf G' = n) (k k' : Int) :
    ∃ R R', mulBase C k = some R ∧ mulBase C k' = some R' ∧ Represents R (k • G') ∧ (R = R' ↔ k % C.n = k' % C.n) := by
  have hk : C.n • G' = 0 := by rw [hn, natCast_zsmul, ← hord, addOrderOf_nsmul_eq_zero]
  obtain ⟨R, h1, h2⟩ := C96_mul hC ho hk hG k
  obtain ⟨R', h1', h2'⟩ := C96_mul hC ho hk hG k'
  refine ⟨R, R', h1, h1', h2, ?_⟩
  rw [C96_equal hC h2 h2', hn, ← hord]
  exact (zsmul_eq_zsmul_iff_modEq).trans Iff.rfl

/-- C96: base multiplication on secp256k1. -/
theorem C96_secp256k1_base (k k' : Int) : ∃ (G' : (curve Pk1 secp256k1.A secp256k1.B).Point) (R R' : AffinePoint),
    Represents secp256k1.G G' ∧ mulBase secp256k1 k = some R ∧ mulBase secp256k1 k' = some R' ∧ Represents R (k • G') ∧
    (R = R' ↔ k % secp256k1.n = k' % secp256k1.n) := by
  obtain ⟨G', hG, ho, hn⟩ := C96_secp256k1_order
  obtain ⟨R, R', h⟩ := mulBase_spec secp256k1_valid (by decide +kernel) hn hG ho k k'
  exact ⟨G', R, R', hG, h⟩

/-- C96: base multiplication on sm2. -/
theorem C96_sm2_base (k k' : Int) : ∃ (G' : (curve Psm2 sm2.A sm2.B).Point) (R R' : AffinePoint),
    Represents sm2.G G' ∧ mulBase sm2 k = some R ∧ mulBase sm2 k' = some R' ∧ Represents R (k • G') ∧
    (R = R' ↔ k % sm2.n = k' % sm2.n) := by
  obtain ⟨G', hG, ho, hn⟩ := C96_sm2_order
  obtain ⟨R, R', h⟩ := mulBase_spec sm2_valid (by decide +kernel) hn hG ho k k'
  exact ⟨G', R, R', hG, h⟩

end Yacl.Ecc
