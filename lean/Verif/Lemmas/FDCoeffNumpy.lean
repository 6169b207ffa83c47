import Verif.Model.FDCoeffNumpy
import Verif.Lemmas.FDCoeff
import Verif.Lemmas.FDMatrices
import Verif.Lemmas.NCExact

/-! # Difference coefficients as numpy computes them: the systems that are solved exactly -/

namespace Verif
open Matrix FD
namespace FDC

/-- Evidence that `lstsq` solves systems with the matrix `A`: `B` is its inverse and the condition is good enough. -/
def Fine {N : ℕ} (A B : Matrix (Fin N) (Fin N) ℚ) : Prop :=
  (∀ j k, ∑ n, B j n * A n k = if j = k then 1 else 0) ∧ (1 / 2 ^ 53 : ℚ) ^ 2 * sqSum A * sqSum B < 1

instance {N : ℕ} (A B : Matrix (Fin N) (Fin N) ℚ) : Decidable (Fine A B) := by unfold Fine; infer_instance

theorem Fine.solves {N : ℕ} {A B : Matrix (Fin N) (Fin N) ℚ} (h : Fine A B) (b w : Fin N → ℝ) :
    Lstsq rcond (A.map fun x => (x : ℝ)) b w ↔ A.map (fun x => (x : ℝ)) *ᵥ w = b := by
  refine lstsq_iff_of_cond (NC.map_mul_one h.1) ?_ b w
  rw [NC.sqSum_map, NC.sqSum_map, rcond]
  have := (Rat.cast_lt (K := ℝ)).mpr h.2
  push_cast at this
  exact this

theorem table_map {N : ℕ} (x : Fin N → ℤ) :
    (table (K := ℚ) fun j => (x j : ℚ)).map (fun y => (y : ℝ)) = table fun j => (x j : ℝ) := by
  ext n j; simp [table]

theorem tableInt_map {N : ℕ} (x : Fin N → ℤ) : (tableInt ℚ x).map (fun y => (y : ℝ)) = tableInt ℝ x := by
  ext n j; simp [tableInt]

/-- Inverse of the table. -/
def tableInverse (N : ℕ) (x : Fin N → ℚ) : Matrix (Fin N) (Fin N) ℚ :=
  fun j n => -(NC.powInverse N x j n * (Nat.factorial n.1 : ℚ))

/-- Centred stencils of up to 19 points are good enough. -/
theorem centred_fine (k : ℕ) (hk : k ≤ 9) :
    Fine (table fun i => ((centred k i : ℤ) : ℚ)) (tableInverse (2 * k + 1) fun i => ((centred k i : ℤ) : ℚ)) := by
  interval_cases k <;> decide +kernel

theorem wrap_eq_abs {z : ℤ} (h : |z| < 2 ^ 63) : NC.wrap z = z := by
  rw [abs_lt] at h
  unfold NC.wrap
  rw [Int.bmod_eq_of_le] <;> omega

/-- The powers do not wrap around for centred stencils of up to 19 points. -/
theorem tableInt_centred {k : ℕ} (hk : k ≤ 9) : tableInt ℝ (centred k) = table fun i => ((centred k i : ℤ) : ℝ) := by
  ext n j
  have hn := n.2
  have hj := j.2
  have h1 : |centred k j| ≤ 9 := by
    rw [abs_le]; unfold centred; omega
  have h2 : |centred k j ^ n.1| < 2 ^ 63 := by
    rw [abs_pow]
    calc |centred k j| ^ n.1 ≤ 9 ^ n.1 := pow_le_pow_left₀ (abs_nonneg _) h1 _
      _ ≤ 9 ^ 18 := pow_le_pow_right₀ (by norm_num) (by omega)
      _ < 2 ^ 63 := by norm_num
  simp only [tableInt, table, wrap_eq_abs h2]
  push_cast
  ring

/-! ## 21 points -/

/-- Inverse of the table of 21 points with the powers that have wrapped around. -/
def inverse21 : List (List ℚ) :=
  [
   [0, 8037225/2236950558264248, -555036863361437/16700755285076708359800, -2376088263/71582417864455936,
    35183617214363621489/57764965338971203032720000, 79561464975/286329671457823744,
    -2074511424137938560829/277271833627061774557056000, -594111337155/286329671457823744,
    2594341341952935973/36273133650845339424000, 3877127019675/286329671457823744,
    -1119402430696507177/2051813620653877785600, -10749996682425/143164835728911872,
    1674136218365057861/512953405163469446400, 6079159461375/17895604466113984,
    -88720007270498107/6106588156707969600, -10518222589875/8947802233056992, 1094345239072999/25444117319616540,
    3093594879375/1118475279132124, -535107599506937/8481372439872180, -1856156927625/559237639566062,
    -618718975875/141356207331203],
   [0, 67926432430789/30588900790164676245, 65484120683914/417518882126917708995,
    -4305318333774380233/211603219583727407436000, -2074734696458697929/722062066737140037909000,
    253768708152101598713/1523543181002837333539200, 122206705903215474169/3465897920338272181963200,
    -634317483829709587/531499452643585324800, -305062129822419731/906828341271133485600,
    136697552403385319/18790384689419683200, 65589936411855847/25647670258173472320,
    -816209545708342993/22548461627303619840, -390056430968409809/25647670258173472320,
    3078835339623919/22369505582642480, 10222479564763529/152664703917699240, -1583048915389311/4473901116528496,
    -246207995085781/1272205865980827, 125888232934328/279618819783031, 111038977513328/424068621993609,
    16705412348625/279618819783031, 12374379517500/141356207331203],
   [0, -2486870867205279/54380268071403868880, 140414818971464113/26721208456122733375680,
    3025046177952331919/7234298105426578032000, -2215258183053415029709/23105986135588481213088000,
    -576314600201054616277/169282575666981925948800, 32259514141632217293467/27727183362706177455705600,
    38503660199578191719/1594498357930755974400, -78886475104247818699/7254626730169067884800,
    -8164049465351339597/56371154068259049600, 16403913920190612761/205181362065387778560,
    3964409225289597023/5637115406825904960, -23181238202219166889/51295340516346944640,
    -86626986604945921/33554258373963720, 1128439237410125291/610658815670796960, 7070243085151181/1118475279132124,
    -12284792973114521/2544411731961654, -2119393952847998/279618819783031, 5099426001138121/848137243987218,
    -141067926499500/279618819783031, -117556605416250/141356207331203],
   [0, 625129769977101/1399492193014070155, -617544078833050466/6819475074739655913585,
    -13675896114024781201/3358781263233768372000, 396522584176714791349/240687355579046679303000,
    794959929838011876929/24183225095283132278400, -467708729913733864757/23577536873049470625600,
    -366085778657150768191/1594498357930755974400, 35153123160419919587/192357526936301042400,
    10820283747843696709/8053022009751292800, -11224801243762792379/8549223419391157440,
    -20276199892964060449/3221208803900517120, 8760281437760622907/1221317631341593920,
    1476510516462027523/67108516747927440, -1424018749797104893/50888234639233080,
    -226768374327423481/4473901116528496, 29247537852858881/424068621993609, 16020147598655032/279618819783031,
    -11460455331042256/141356207331203, 740606614122375/279618819783031, 705339632497500/141356207331203],
   [0, -4457195704179871/1599419649158937320, 50520181163212393/65493157980692973960,
    42793891903109441305411/1692825756669819259488000, -53784444833513146631357/3850997689264746868848000,
    -2454993410543317417053991/12188345448022698668313600, 3068095819834780600381657/18484788908470784970470400,
    2919883472146580122567/2125997810574341299200, -3609757837938475390009/2418208910056355961600,
    -1164043758851881438843/150323077515357465600, 1412790410089903419781/136787574710258519040,
    1553981466163756621199/45096923254607239680, -1830944279966231339633/34196893677564629760,
    -10130029567379999239/89478022330569920, 79823583706570242511/407105877113864640,
    2197426282962424383/8947802233056992, -772852747794446827/1696274487974436, -295232195609594603/1118475279132124,
    288546906088305941/565424829324812, -5395848188605875/559237639566062, -2997693438114375/141356207331203],
   [0, 2511000907264404/199927456144867165, -185005949481159368/40933223737933108725,
    -408780718550858273/3617149052713289016, 24421380219943086455357/300859194473808349128750,
    1490874893753866886801/1692825756669819259488, -1362427489182296331970477/1444124133474280075818000,
    -92001660820181932345/15944983579307559744, 3078970406077759277423/377845142196305619000,
    17288869168981338613/563711540682590496, -567357239435556824851/10686529274238946800,
    -143263551494854056725/1127423081365180992, 2733275797569744595397/10686529274238946800,
    1311663818148255335/3355425837396372, -55764961183583203307/63610293299041350,
    -898569006605261875/1118475279132124, 4098998037034602292/2120343109968045, 231680609939347600/279618819783031,
    -1471390953604443296/706781036656015, 7194464251474500/279618819783031, 9592619001966000/141356207331203],
   [0, -17593711763199453/399854912289734330, 679157924395659697/32746578990346486980,
    2619714438585620750971/6717562526467536744000, -706439565872972087413553/1925498844632373434424000,
    -35243704202383935309749/12091612547641566139200, 9446997297056466595073887/2310598613558848121308800,
    14149312657407504599689/797249178965377987200, -1801975878495721531333/54959293410371726400,
    -345536417051241971809/4026511004875646400, 3315679612072065596761/17098446838782314880,
    132122016834659629579/402651100487564640, -3682071665947853602073/4274611709695578720,
    -15929323889680062179/16777129186981860, 141389866247602397131/50888234639233080,
    1042852317613305871/559237639566062, -2487137836414705634/424068621993609, -520403459114433524/279618819783031,
    865460475132266002/141356207331203, -14388928502949000/279618819783031, -23981547504915000/141356207331203],
   [0, 1956046706762092/15379035088066705, -673533002017796936/8186644747586621745,
    -633764543808322939849/581327526328921449000, 84686816996539453697933/60171838894761669825750,
    31023471180395899829881/4185558189568234432800, -4117770960508669400468221/288824826694856015163600,
    -5159808327101844765281/132874863160896331200, 7416079653008268117407/75569028439261123800,
    112942090051687940059/671085167479274400, -1110863940676421812483/2137305854847789360,
    -480995482499511051197/805302200975129280, 4580511929875953501653/2137305854847789360,
    9183380570864371703/5592376395660620, -83633054746515212351/12722058659808270,
    -3480876665766536673/1118475279132124, 5686710957778674388/424068621993609, 847154467780011664/279618819783031,
    -1932777614333489888/141356207331203, 21583392754423500/279618819783031, 47963095009830000/141356207331203],
   [0, -20126986553595357/61516140352266820, 813843700751708593/2518967614642037460,
    18315785341050730729793/7234298105426578032000, -738879601654226300792357/148115295740951802648000,
    -658383095767253530846957/52086946359071361830400, 26304385354668338229404929/710953419556568652710400,
    179072646773916225184951/3188996715861511948800, -260939943412578818513737/1209104455028177980800,
    -49912864048813880805791/225484616273036198400, 71113911783335786018401/68393787355129259520,
    16708362921980119763969/22548461627303619840, -69183860482992916339709/17098446838782314880,
    -263249920608576943483/134217033495854880, 2434364720799948573091/203552938556932320,
    16210662728713940513/4473901116528496, -20190807159414936031/848137243987218,
    -1938494278810108357/559237639566062, 6750123073886780081/282712414662406, -23382008817292125/279618819783031,
    -77940029390973750/141356207331203],
   [0, 1258200318254202/1398094098915155, -3390060579362883268/1889225710981528095,
    -239569390497707817649/82207933016211114000, 320947744299216842258933/27771617951428462996500,
    6690576805661550695009/591897117716720020800, -8877102268417727245371493/133303766166856622383200,
    -3244589211201662499541/72477198087761635200, 157063655306577779518091/453414170635566742800,
    4675574292123476024747/28185577034129524800, -20126936366996260153087/12823835129086736160,
    -6034995408634405340303/11274230813651809920, 75538198010041992189689/12823835129086736160,
    46451627589260157407/33554258373963720, -1299244515544890554549/76332351958849620,
    -5633773737859342361/2236950558264248, 42476513311478300522/1272205865980827, 666763345994052736/279618819783031,
    -14062561140537085696/424068621993609, 15588005878194750/279618819783031, 103920039187965000/141356207331203],
   [-1, 0, 4138334950412577935317/1346502688554107296800, 0, -6202602176881456483877837/403950806566232189040000, 0,
    802470206547207624479467/9892672813866910752000, 0, -4680434119030583215789097/11541451616178062544000, 0,
    922853407003571191735847/512953405163469446400, 0, -122190058720119224488753/18319764470123908800, 0,
    29200531072329733307477/1526647039176992400, 0, -237501899241616162439/6361029329904135, 0,
    78374997093020434807/2120343109968045, 0, -114312043106761500/141356207331203],
   [0, -1258200318254202/1398094098915155, -3390060579362883268/1889225710981528095,
    239569390497707817649/82207933016211114000, 320947744299216842258933/27771617951428462996500,
    -6690576805661550695009/591897117716720020800, -8877102268417727245371493/133303766166856622383200,
    3244589211201662499541/72477198087761635200, 157063655306577779518091/453414170635566742800,
    -4675574292123476024747/28185577034129524800, -20126936366996260153087/12823835129086736160,
    6034995408634405340303/11274230813651809920, 75538198010041992189689/12823835129086736160,
    -46451627589260157407/33554258373963720, -1299244515544890554549/76332351958849620,
    5633773737859342361/2236950558264248, 42476513311478300522/1272205865980827, -666763345994052736/279618819783031,
    -14062561140537085696/424068621993609, -15588005878194750/279618819783031, 103920039187965000/141356207331203],
   [0, 20126986553595357/61516140352266820, 813843700751708593/2518967614642037460,
    -18315785341050730729793/7234298105426578032000, -738879601654226300792357/148115295740951802648000,
    658383095767253530846957/52086946359071361830400, 26304385354668338229404929/710953419556568652710400,
    -179072646773916225184951/3188996715861511948800, -260939943412578818513737/1209104455028177980800,
    49912864048813880805791/225484616273036198400, 71113911783335786018401/68393787355129259520,
    -16708362921980119763969/22548461627303619840, -69183860482992916339709/17098446838782314880,
    263249920608576943483/134217033495854880, 2434364720799948573091/203552938556932320,
    -16210662728713940513/4473901116528496, -20190807159414936031/848137243987218,
    1938494278810108357/559237639566062, 6750123073886780081/282712414662406, 23382008817292125/279618819783031,
    -77940029390973750/141356207331203],
   [0, -1956046706762092/15379035088066705, -673533002017796936/8186644747586621745,
    633764543808322939849/581327526328921449000, 84686816996539453697933/60171838894761669825750,
    -31023471180395899829881/4185558189568234432800, -4117770960508669400468221/288824826694856015163600,
    5159808327101844765281/132874863160896331200, 7416079653008268117407/75569028439261123800,
    -112942090051687940059/671085167479274400, -1110863940676421812483/2137305854847789360,
    480995482499511051197/805302200975129280, 4580511929875953501653/2137305854847789360,
    -9183380570864371703/5592376395660620, -83633054746515212351/12722058659808270,
    3480876665766536673/1118475279132124, 5686710957778674388/424068621993609, -847154467780011664/279618819783031,
    -1932777614333489888/141356207331203, -21583392754423500/279618819783031, 47963095009830000/141356207331203],
   [0, 17593711763199453/399854912289734330, 679157924395659697/32746578990346486980,
    -2619714438585620750971/6717562526467536744000, -706439565872972087413553/1925498844632373434424000,
    35243704202383935309749/12091612547641566139200, 9446997297056466595073887/2310598613558848121308800,
    -14149312657407504599689/797249178965377987200, -1801975878495721531333/54959293410371726400,
    345536417051241971809/4026511004875646400, 3315679612072065596761/17098446838782314880,
    -132122016834659629579/402651100487564640, -3682071665947853602073/4274611709695578720,
    15929323889680062179/16777129186981860, 141389866247602397131/50888234639233080,
    -1042852317613305871/559237639566062, -2487137836414705634/424068621993609, 520403459114433524/279618819783031,
    865460475132266002/141356207331203, 14388928502949000/279618819783031, -23981547504915000/141356207331203],
   [0, -2511000907264404/199927456144867165, -185005949481159368/40933223737933108725,
    408780718550858273/3617149052713289016, 24421380219943086455357/300859194473808349128750,
    -1490874893753866886801/1692825756669819259488, -1362427489182296331970477/1444124133474280075818000,
    92001660820181932345/15944983579307559744, 3078970406077759277423/377845142196305619000,
    -17288869168981338613/563711540682590496, -567357239435556824851/10686529274238946800,
    143263551494854056725/1127423081365180992, 2733275797569744595397/10686529274238946800,
    -1311663818148255335/3355425837396372, -55764961183583203307/63610293299041350,
    898569006605261875/1118475279132124, 4098998037034602292/2120343109968045, -231680609939347600/279618819783031,
    -1471390953604443296/706781036656015, -7194464251474500/279618819783031, 9592619001966000/141356207331203],
   [0, 4457195704179871/1599419649158937320, 50520181163212393/65493157980692973960,
    -42793891903109441305411/1692825756669819259488000, -53784444833513146631357/3850997689264746868848000,
    2454993410543317417053991/12188345448022698668313600, 3068095819834780600381657/18484788908470784970470400,
    -2919883472146580122567/2125997810574341299200, -3609757837938475390009/2418208910056355961600,
    1164043758851881438843/150323077515357465600, 1412790410089903419781/136787574710258519040,
    -1553981466163756621199/45096923254607239680, -1830944279966231339633/34196893677564629760,
    10130029567379999239/89478022330569920, 79823583706570242511/407105877113864640,
    -2197426282962424383/8947802233056992, -772852747794446827/1696274487974436, 295232195609594603/1118475279132124,
    288546906088305941/565424829324812, 5395848188605875/559237639566062, -2997693438114375/141356207331203],
   [0, -625129769977101/1399492193014070155, -617544078833050466/6819475074739655913585,
    13675896114024781201/3358781263233768372000, 396522584176714791349/240687355579046679303000,
    -794959929838011876929/24183225095283132278400, -467708729913733864757/23577536873049470625600,
    366085778657150768191/1594498357930755974400, 35153123160419919587/192357526936301042400,
    -10820283747843696709/8053022009751292800, -11224801243762792379/8549223419391157440,
    20276199892964060449/3221208803900517120, 8760281437760622907/1221317631341593920,
    -1476510516462027523/67108516747927440, -1424018749797104893/50888234639233080,
    226768374327423481/4473901116528496, 29247537852858881/424068621993609, -16020147598655032/279618819783031,
    -11460455331042256/141356207331203, -740606614122375/279618819783031, 705339632497500/141356207331203],
   [0, 2486870867205279/54380268071403868880, 140414818971464113/26721208456122733375680,
    -3025046177952331919/7234298105426578032000, -2215258183053415029709/23105986135588481213088000,
    576314600201054616277/169282575666981925948800, 32259514141632217293467/27727183362706177455705600,
    -38503660199578191719/1594498357930755974400, -78886475104247818699/7254626730169067884800,
    8164049465351339597/56371154068259049600, 16403913920190612761/205181362065387778560,
    -3964409225289597023/5637115406825904960, -23181238202219166889/51295340516346944640,
    86626986604945921/33554258373963720, 1128439237410125291/610658815670796960, -7070243085151181/1118475279132124,
    -12284792973114521/2544411731961654, 2119393952847998/279618819783031, 5099426001138121/848137243987218,
    141067926499500/279618819783031, -117556605416250/141356207331203],
   [0, -67926432430789/30588900790164676245, 65484120683914/417518882126917708995,
    4305318333774380233/211603219583727407436000, -2074734696458697929/722062066737140037909000,
    -253768708152101598713/1523543181002837333539200, 122206705903215474169/3465897920338272181963200,
    634317483829709587/531499452643585324800, -305062129822419731/906828341271133485600,
    -136697552403385319/18790384689419683200, 65589936411855847/25647670258173472320,
    816209545708342993/22548461627303619840, -390056430968409809/25647670258173472320,
    -3078835339623919/22369505582642480, 10222479564763529/152664703917699240, 1583048915389311/4473901116528496,
    -246207995085781/1272205865980827, -125888232934328/279618819783031, 111038977513328/424068621993609,
    -16705412348625/279618819783031, 12374379517500/141356207331203],
   [0, -8037225/2236950558264248, -555036863361437/16700755285076708359800, 2376088263/71582417864455936,
    35183617214363621489/57764965338971203032720000, -79561464975/286329671457823744,
    -2074511424137938560829/277271833627061774557056000, 594111337155/286329671457823744,
    2594341341952935973/36273133650845339424000, -3877127019675/286329671457823744,
    -1119402430696507177/2051813620653877785600, 10749996682425/143164835728911872,
    1674136218365057861/512953405163469446400, -6079159461375/17895604466113984,
    -88720007270498107/6106588156707969600, 10518222589875/8947802233056992, 1094345239072999/25444117319616540,
    -3093594879375/1118475279132124, -535107599506937/8481372439872180, 1856156927625/559237639566062,
    -618718975875/141356207331203]]

def inverse21Matrix : Matrix (Fin 21) (Fin 21) ℚ := fun j n => (inverse21.getD j []).getD n 0

theorem fine21 : Fine (N := 21) (tableInt ℚ (centred 10)) inverse21Matrix := by decide +kernel

end FDC
end Verif
