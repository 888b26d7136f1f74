import Mathlib.Tactic.Linarith
import Mathlib.Tactic.Ring
import Mathlib.Tactic.Positivity
import Mathlib.Analysis.SpecialFunctions.Trigonometric.Deriv
import Mathlib.Analysis.Calculus.MeanValue

set_option autoImplicit false

/-! # C94: the polynomial for the sine -/

namespace Spu.Props

/-- the polynomial of `sin_chebyshev` in the scaled angle, with the exact coefficients -/
noncomputable def sinP (v : ℝ) : ℝ := (16865735111 / 4294967296) * v + (-5415222209 / 536870912) * v ^ 3 + (2074869493 / 268435456) * v ^ 5 + (-181563303 / 67108864) * v ^ 7 + (7194095 / 16777216) * v ^ 9

/-- the Taylor polynomial of the sine, its derivative, and the derivative of that -/
noncomputable def sinQ (v : ℝ) : ℝ := (1) * v + (-1 / 6) * v ^ 3 + (1 / 120) * v ^ 5 + (-1 / 5040) * v ^ 7 + (1 / 362880) * v ^ 9 + (-1 / 39916800) * v ^ 11 + (1 / 6227020800) * v ^ 13 + (-1 / 1307674368000) * v ^ 15 + (1 / 355687428096000) * v ^ 17 + (-1 / 121645100408832000) * v ^ 19 + (1 / 51090942171709440000) * v ^ 21
noncomputable def sinQ' (v : ℝ) : ℝ := 1 + (-1 / 2) * v ^ 2 + (1 / 24) * v ^ 4 + (-1 / 720) * v ^ 6 + (1 / 40320) * v ^ 8 + (-1 / 3628800) * v ^ 10 + (1 / 479001600) * v ^ 12 + (-1 / 87178291200) * v ^ 14 + (1 / 20922789888000) * v ^ 16 + (-1 / 6402373705728000) * v ^ 18 + (1 / 2432902008176640000) * v ^ 20
noncomputable def sinQ'' (v : ℝ) : ℝ := (-1) * v + (1 / 6) * v ^ 3 + (-1 / 120) * v ^ 5 + (1 / 5040) * v ^ 7 + (-1 / 362880) * v ^ 9 + (1 / 39916800) * v ^ 11 + (-1 / 6227020800) * v ^ 13 + (1 / 1307674368000) * v ^ 15 + (-1 / 355687428096000) * v ^ 17 + (1 / 121645100408832000) * v ^ 19

theorem sinPQ_0 (v : ℝ) (h0 : 0 ≤ v) (h1 : v ≤ 3927 / 8000) : |sinP (4272283 / 16777216 * v) - sinQ v| ≤ 1 / 8000 := by
  obtain ⟨t, ht, hv⟩ : ∃ t : ℝ, 0 ≤ t ∧ v = 0 + t * (3927 / 8000) := ⟨(v - (0)) * (8000 / 3927), mul_nonneg (by linarith) (by norm_num), by ring⟩
  obtain ⟨s, hs, hst⟩ : ∃ s : ℝ, 0 ≤ s ∧ s = 1 - t := ⟨1 - t, by linarith, rfl⟩
  have a : 1 / 8000 + (sinP (4272283 / 16777216 * v) - sinQ v) = 1 / 8000 * (s ^ 21) +
        300756431753891967 / 115292150460684697600 * (t * s ^ 20) +
        747177421371216507 / 28823037615171174400 * (t ^ 2 * s ^ 19) +
        211788046783730466938862790935958066719947 / 1298074214633706907132624082305024000000000 * (t ^ 3 * s ^ 18) +
        473610171778771713238280235823686600479523 / 649037107316853453566312041152512000000000 * (t ^ 4 * s ^ 17) +
        144182810554599984120746433092124924799635465179095794916788254757 / 58460065493236116728147393308651320786237301719040000000000000000 * (t ^ 5 * s ^ 16) +
        23895063861936480824693642159461909313168816486208941530548254757 / 3653754093327257295509212081790707549139831357440000000000000000 * (t ^ 6 * s ^ 15) +
        3670156707404027375572202939007569893563940700915019474498925017235704398935517537449329 / 263280729171392966744795069209176080797237738501372778135777443840000000000000000000000 * (t ^ 7 * s ^ 14) +
        3195864069296868500664789302489297501142921523619174015011282804602766970296918442145303 / 131640364585696483372397534604588040398618869250686389067888721920000000000000000000000 * (t ^ 8 * s ^ 13) +
        41400011953691527927347486123765167523091062054751710696033895781536743749811254533146353428829073673590218863 / 1185710993790117841137366886488964176417484642976159375764045660241030447512944640000000000000000000000000000 * (t ^ 9 * s ^ 12) +
        12373752912345501764490919048946787463881053702002153455587533330756724186582782277461455948630138333282656589 / 296427748447529460284341721622241044104371160744039843941011415060257611878236160000000000000000000000000000 * (t ^ 10 * s ^ 11) +
        1927479018805046805948891470286657754821574802360876432636106374170561048591190799502262324409310639685139234112227 / 46316835694926478169428394003475163141307993866256225615783033603165251855974400000000000000000000000000000000000 * (t ^ 11 * s ^ 10) +
        160248137581391822160563776399852579886781462975585049951522026347935626494756130440541931216068610849950563330977 / 4631683569492647816942839400347516314130799386625622561578303360316525185597440000000000000000000000000000000000 * (t ^ 12 * s ^ 9) +
        449998983269573527519745409425802398499670475783585571496156942673202519199646636035242861946260517307147455364708634417 / 18816214501063881756330285063911785026156372508166591656411857401285883566489600000000000000000000000000000000000000000 * (t ^ 13 * s ^ 8) +
        32119790363298950429570346657417632332837279924161052994954144541133468420366872936885039244187457331147349797723321917 / 2352026812632985219541285632988973128269546563520823957051482175160735445811200000000000000000000000000000000000000000 * (t ^ 14 * s ^ 7) +
        2342448186945733603791040331677524103926483865022270941386272607177051878674409621085865554734920780618722647518231836043269 / 367504189473903940553325880154527051292116650550128743289294089868864913408000000000000000000000000000000000000000000000000 * (t ^ 15 * s ^ 6) +
        439680393319464640868817089910030269590441886421690284100399048362361278340782871917008785440226712122616097576267239536057 / 183752094736951970276662940077263525646058325275064371644647044934432456704000000000000000000000000000000000000000000000000 * (t ^ 16 * s ^ 5) +
        16197170871713833752834774084174393302729458550755212993684436624138847842543473961343078794451476493413943406521912051235084933 / 22969011842118996284582867509657940705757290659383046455580880616804057088000000000000000000000000000000000000000000000000000000 * (t ^ 17 * s ^ 4) +
        902501768844636588865759423218260766824908472743112704120472431898298764055583485203724670496795607215423594991650032004459933 / 5742252960529749071145716877414485176439322664845761613895220154201014272000000000000000000000000000000000000000000000000000000 * (t ^ 18 * s ^ 3) +
        84939925649866041121643321256446608345401353011715771560184283088787940550021688076579278083579120605872679163550636372982539354553 / 3409462695314538510992769395964850573510847832252170958250286966556852224000000000000000000000000000000000000000000000000000000000000 * (t ^ 19 * s ^ 2) +
        4267579544569723771086491716848498491108280956752424315814961405911964981987307704910334696791716576513427365540286475260235385803 / 1704731347657269255496384697982425286755423916126085479125143483278426112000000000000000000000000000000000000000000000000000000000000 * (t ^ 20 * s) +
        63872041679677314501397775375633919280896068817345080425025250251018540312782410761482850068825635080393680170014389838097693426612709 / 532728546142896642342620218119507902111069973789401712226607338524508160000000000000000000000000000000000000000000000000000000000000000000 * (t ^ 21) := by
    rw [sinP, sinQ, hv, hst]; ring
  have b : 1 / 8000 - (sinP (4272283 / 16777216 * v) - sinQ v) = 1 / 8000 * (s ^ 21) +
        1522636790823513477 / 576460752303423488000 * (t * s ^ 20) +
        766032053425270149 / 28823037615171174400 * (t ^ 2 * s ^ 19) +
        219821629581977079682734716430462413280053 / 1298074214633706907132624082305024000000000 * (t ^ 3 * s ^ 18) +
        497511600044070266660314155750759479520477 / 649037107316853453566312041152512000000000 * (t ^ 4 * s ^ 17) +
        153218157625865450704521393517311506870150247991090445083211745243 / 58460065493236116728147393308651320786237301719040000000000000000 * (t ^ 5 * s ^ 16) +
        25671764168141091646184328942110829298462135708822098469451745243 / 3653754093327257295509212081790707549139831357440000000000000000 * (t ^ 6 * s ^ 15) +
        3983414089608366167698989722903178775211760357319887185908125275193095601064482462550671 / 263280729171392966744795069209176080797237738501372778135777443840000000000000000000000 * (t ^ 7 * s ^ 14) +
        3501010378088975849697504276682607584035816902336369312844886201272433029703081557854697 / 131640364585696483372397534604588040398618869250686389067888721920000000000000000000000 * (t ^ 8 * s ^ 13) +
        45728996147490806334029076112660142570506753222743920633547589447124776109558699975653646571170926326409781137 / 1185710993790117841137366886488964176417484642976159375764045660241030447512944640000000000000000000000000000 * (t ^ 9 * s ^ 12) +
        13764949518009198513922049621980805564198290881246535943286912237841731771228204075178544051369861666717343411 / 296427748447529460284341721622241044104371160744039843941011415060257611878236160000000000000000000000000000 * (t ^ 10 * s ^ 11) +
        2156693235937875112553134884545778655815822788771731285938025745922947694816775818097737675590689360314860765887773 / 46316835694926478169428394003475163141307993866256225615783033603165251855974400000000000000000000000000000000000 * (t ^ 11 * s ^ 10) +
        180099550313851671047938419836183787666335002952132259929655650326523435455907754359458068783931389150049436669023 / 4631683569492647816942839400347516314130799386625622561578303360316525185597440000000000000000000000000000000000 * (t ^ 12 * s ^ 9) +
        507228888935798797129167017488049885243469584638119362544655272973713592536595539964757138053739482692852544635291365583 / 18816214501063881756330285063911785026156372508166591656411857401285883566489600000000000000000000000000000000000000000 * (t ^ 13 * s ^ 8) +
        36253629079941929902494826693571816505958438677389299436532442290789110989364711063114960755812542668852650202276678083 / 2352026812632985219541285632988973128269546563520823957051482175160735445811200000000000000000000000000000000000000000 * (t ^ 14 * s ^ 7) +
        2643113647457247253755378558498789873902370616340775590076291015983969536618518378914134445265079219381277352481768163956731 / 367504189473903940553325880154527051292116650550128743289294089868864913408000000000000000000000000000000000000000000000000 * (t ^ 15 * s ^ 6) +
        495112450631094269921136451998028601252468328833880940548831630980330237026641128082991214559773287877383902423732760463943 / 183752094736951970276662940077263525646058325275064371644647044934432456704000000000000000000000000000000000000000000000000 * (t ^ 16 * s ^ 5) +
        18170213097056714437972341427151300478259887598346670265478455998754222575376526038656921205548523506586056593478087948764915067 / 22969011842118996284582867509657940705757290659383046455580880616804057088000000000000000000000000000000000000000000000000000000 * (t ^ 17 * s ^ 4) +
        1006797340531504977290191438522055554341166313318103032499688269373538481384416514796275329503204392784576405008349967995540067 / 5742252960529749071145716877414485176439322664845761613895220154201014272000000000000000000000000000000000000000000000000000000 * (t ^ 18 * s ^ 3) +
        94056865854147230705477072031708046763918158181523203747955782655446801209978311923420721916420879394127320836449363627017460645447 / 3409462695314538510992769395964850573510847832252170958250286966556852224000000000000000000000000000000000000000000000000000000000000 * (t ^ 19 * s ^ 2) +
        4682260030630939820269527947559234264357694602909524449592041881299772106012692295089665303208283423486572634459713524739764614197 / 1704731347657269255496384697982425286755423916126085479125143483278426112000000000000000000000000000000000000000000000000000000000000 * (t ^ 20 * s) +
        69310094856046846084257279154243056246871424630005347631626584380108499687217589238517149931174364919606319829985610161902306573387291 / 532728546142896642342620218119507902111069973789401712226607338524508160000000000000000000000000000000000000000000000000000000000000000000 * (t ^ 21) := by
    rw [sinP, sinQ, hv, hst]; ring
  have a0 : 0 ≤ 1 / 8000 + (sinP (4272283 / 16777216 * v) - sinQ v) := by rw [a]; positivity
  have b0 : 0 ≤ 1 / 8000 - (sinP (4272283 / 16777216 * v) - sinQ v) := by rw [b]; positivity
  rw [abs_le]
  constructor <;> linarith

theorem sinPQ_1 (v : ℝ) (h0 : 3927 / 8000 ≤ v) (h1 : v ≤ 3927 / 4000) : |sinP (4272283 / 16777216 * v) - sinQ v| ≤ 1 / 8000 := by
  obtain ⟨t, ht, hv⟩ : ∃ t : ℝ, 0 ≤ t ∧ v = 3927 / 8000 + t * (3927 / 8000) := ⟨(v - (3927 / 8000)) * (8000 / 3927), mul_nonneg (by linarith) (by norm_num), by ring⟩
  obtain ⟨s, hs, hst⟩ : ∃ s : ℝ, 0 ≤ s ∧ s = 1 - t := ⟨1 - t, by linarith, rfl⟩
  have a : 1 / 8000 + (sinP (4272283 / 16777216 * v) - sinQ v) = 63872041679677314501397775375633919280896068817345080425025250251018540312782410761482850068825635080393680170014389838097693426612709 / 532728546142896642342620218119507902111069973789401712226607338524508160000000000000000000000000000000000000000000000000000000000000000000 * (s ^ 21) +
        674503571434204265297088952130734415663148545671680389579442535597644818132913797098900055071632621608044257704632424840639782927148139 / 266364273071448321171310109059753951055534986894700856113303669262254080000000000000000000000000000000000000000000000000000000000000000000 * (t * s ^ 20) +
        1357963408659896596784975380124604361106814725524515291561298686957912729883676749023192254847631385578045539286329345652764192996608181 / 53272854614289664234262021811950790211106997378940171222660733852450816000000000000000000000000000000000000000000000000000000000000000000 * (t ^ 2 * s ^ 19) +
        2192586000429896508963487840723757147054788938655355626104070545932038359775686299344194645242422513019841606799944741943284869260513 / 13479973333575319897333507543509815336818572211270286240551805124608000000000000000000000000000000000000000000000000000000000000000000 * (t ^ 3 * s ^ 18) +
        4138857641030071262914265030813629196707326525109270517234809026819754769669196407316439458799912984348425469718068865327541311747188797 / 5607668906767333077290739138100083180116526039888439076069550931836928000000000000000000000000000000000000000000000000000000000000000000 * (t ^ 4 * s ^ 17) +
        35502898488627917995587932808799609379028894887141973677427977406875163919005266299401479855439832726481257789669283677200501210448584549 / 14019172266918332693226847845250207950291315099721097690173877329592320000000000000000000000000000000000000000000000000000000000000000000 * (t ^ 5 * s ^ 16) +
        47806964390638461105532295667514047559009043683510906073232380194914863207939807010431441745639821195145107867338352161047413265516616089 / 7009586133459166346613423922625103975145657549860548845086938664796160000000000000000000000000000000000000000000000000000000000000000000 * (t ^ 6 * s ^ 15) +
        5176565193829133323051441260866124842585182936117640046404850658884572814063505607431983802234618762812925353366923044900119442203349653 / 350479306672958317330671196131255198757282877493027442254346933239808000000000000000000000000000000000000000000000000000000000000000000 * (t ^ 7 * s ^ 14) +
        146574060815772424498296209631217893893233356800363062545510366563079916819915200421811254077430761220435023941755236481003526907569658693 / 5607668906767333077290739138100083180116526039888439076069550931836928000000000000000000000000000000000000000000000000000000000000000000 * (t ^ 8 * s ^ 13) +
        8239121754312232014778714662543676685740664254912349920332100413407784009481235143898201155607210344207732520533734934723311967838055827 / 215679573337205118357336120696157045389097155380324579848828881993728000000000000000000000000000000000000000000000000000000000000000000 * (t ^ 9 * s ^ 12) +
        50041920385034300953867159362033962654620200644116464800929405986111568565557543338836122617521379024656852158474296084215148422856716799 / 1078397866686025591786680603480785226945485776901622899244144409968640000000000000000000000000000000000000000000000000000000000000000000 * (t ^ 10 * s ^ 11) +
        6334554261792444995215563967326862107668967541153267643984553962409124194169262641676947722310888054482852984207259924501210083541386231 / 134799733335753198973335075435098153368185722112702862405518051246080000000000000000000000000000000000000000000000000000000000000000000 * (t ^ 11 * s ^ 10) +
        17111598227222524581886939583703229056021197234416178093432022990653942698200810139602322763087764044413741174860953589996352973173502607 / 431359146674410236714672241392314090778194310760649159697657763987456000000000000000000000000000000000000000000000000000000000000000000 * (t ^ 12 * s ^ 9) +
        78019833878876236558560109999294452050929814623963833017184805810607977425873836951516886747159531958829495141989346440561495506040710963 / 2803834453383666538645369569050041590058263019944219538034775465918464000000000000000000000000000000000000000000000000000000000000000000 * (t ^ 13 * s ^ 8) +
        5647248981119647783407974524469056725606274388865594724103525736797645475859559812483535176353717087164421354766001718350478975967114959 / 350479306672958317330671196131255198757282877493027442254346933239808000000000000000000000000000000000000000000000000000000000000000000 * (t ^ 14 * s ^ 7) +
        6676722616659963851019922150389273126905126523685939533169980740646412086729987802426280701542107376687264148645884773085309639780851571 / 876198266682395793326677990328137996893207193732568605635867333099520000000000000000000000000000000000000000000000000000000000000000000 * (t ^ 15 * s ^ 6) +
        195169639088776244028105864594573754811396122132060652842928383975769802732815073129564464776339355859226714905913163805580369430949069 / 67399866667876599486667537717549076684092861056351431202759025623040000000000000000000000000000000000000000000000000000000000000000000 * (t ^ 16 * s ^ 5) +
        75610348767044618123170797425972012593389495894079387394326929811891584708460386946783036141930599269557120618892842662417626671494141 / 87619826668239579332667799032813799689320719373256860563586733309952000000000000000000000000000000000000000000000000000000000000000000 * (t ^ 17 * s ^ 4) +
        4255196362615187478983174178259047270069988529314996653563676314410740399235414528307316023199538436883518007152173282684121238874349 / 21904956667059894833166949758203449922330179843314215140896683327488000000000000000000000000000000000000000000000000000000000000000000 * (t ^ 18 * s ^ 3) +
        6463856578890362216034500234447460307244738584149951790568945088311699920883351229918484618821523326739942183244562132553460923779297 / 208097088337069000915086022702932774262136708511485043838518491611136000000000000000000000000000000000000000000000000000000000000000000 * (t ^ 19 * s ^ 2) +
        6543456824651756506235945720959937440443769074460112167945151900560642602859873342592081115247873192481861399290497469543343553230469 / 2080970883370690009150860227029327742621367085114850438385184916111360000000000000000000000000000000000000000000000000000000000000000000 * (t ^ 20 * s) +
        157642775341529593998670660500604149378607059680978912266442835688129748311010963224966795014177558316070200769222249092423217609189 / 1040485441685345004575430113514663871310683542557425219192592458055680000000000000000000000000000000000000000000000000000000000000000000 * (t ^ 21) := by
    rw [sinP, sinQ, hv, hst]; ring
  have b : 1 / 8000 - (sinP (4272283 / 16777216 * v) - sinQ v) = 69310094856046846084257279154243056246871424630005347631626584380108499687217589238517149931174364919606319829985610161902306573387291 / 532728546142896642342620218119507902111069973789401712226607338524508160000000000000000000000000000000000000000000000000000000000000000000 * (s ^ 21) +
        723908862190899420852289120432973827378410135525499105015401728029189101867086202901099944928367378391955742295367575159360217072851861 / 266364273071448321171310109059753951055534986894700856113303669262254080000000000000000000000000000000000000000000000000000000000000000000 * (t * s ^ 20) +
        1438861458590310775513780765002812124976302636869843697628389840295755110116323250976807745152368614421954460713670654347235807003391819 / 53272854614289664234262021811950790211106997378940171222660733852450816000000000000000000000000000000000000000000000000000000000000000000 * (t ^ 2 * s ^ 19) +
        2289505132983897356899903417493256452437386321592014548879404658000121640224313700655805354757577486980158393200055258056715130739487 / 13479973333575319897333507543509815336818572211270286240551805124608000000000000000000000000000000000000000000000000000000000000000000 * (t ^ 3 * s ^ 18) +
        4251616960720550853982003404568620261542025562073806450334256554941248750330803592683560541200087015651574530281931134672458688252811203 / 5607668906767333077290739138100083180116526039888439076069550931836928000000000000000000000000000000000000000000000000000000000000000000 * (t ^ 4 * s ^ 17) +
        35816135626252369998030348891949511016090597853914180546909080038093366000994733700598520144560167273518742210330716322799498789551415451 / 14019172266918332693226847845250207950291315099721097690173877329592320000000000000000000000000000000000000000000000000000000000000000000 * (t ^ 5 * s ^ 16) +
        47285081095868589552625413266818112967816946637897299559217029731709843352060192989568558254360178804854892132661647838952586734483383911 / 7009586133459166346613423922625103975145657549860548845086938664796160000000000000000000000000000000000000000000000000000000000000000000 * (t ^ 6 * s ^ 15) +
        5011868251153764961751170410669463785289030312604667699929014690396645745936494392568016197765381237187074646633076955099880557796650347 / 350479306672958317330671196131255198757282877493027442254346933239808000000000000000000000000000000000000000000000000000000000000000000 * (t ^ 7 * s ^ 14) +
        138702075643748727476176917171778587687244614163861554351837863216794202860084799578188745922569238779564976058244763518996473092430341307 / 5607668906767333077290739138100083180116526039888439076069550931836928000000000000000000000000000000000000000000000000000000000000000000 * (t ^ 8 * s ^ 13) +
        7609552493438943094914236826511683402063667465322351018409467907696333750518764856101798844392789655792267479466265065276688032161944173 / 215679573337205118357336120696157045389097155380324579848828881993728000000000000000000000000000000000000000000000000000000000000000000 * (t ^ 9 * s ^ 12) +
        45050125101472749704290549572298197872205789677291740831520003940513137994442456661163877382478620975343147841525703915784851577143283201 / 1078397866686025591786680603480785226945485776901622899244144409968640000000000000000000000000000000000000000000000000000000000000000000 * (t ^ 10 * s ^ 11) +
        5551951424020936337054149649464657958184281249022758060071622278418964125830737358323052277689111945517147015792740075498789916458613769 / 134799733335753198973335075435098153368185722112702862405518051246080000000000000000000000000000000000000000000000000000000000000000000 * (t ^ 11 * s ^ 10) +
        14585750268279825637498963394407491119587466206053223784051113651554292821799189860397677236912235955586258825139046410003647026826497393 / 431359146674410236714672241392314090778194310760649159697657763987456000000000000000000000000000000000000000000000000000000000000000000 * (t ^ 12 * s ^ 9) +
        64618234350884339428676453402203788739309170858148475431489309079329082414126163048483113252840468041170504858010653559438504493959289037 / 2803834453383666538645369569050041590058263019944219538034775465918464000000000000000000000000000000000000000000000000000000000000000000 * (t ^ 13 * s ^ 8) +
        4541184463863250501394637147066531902267938859856713022230339612483573084140440187516464823646282912835578645233998281649521024032885041 / 350479306672958317330671196131255198757282877493027442254346933239808000000000000000000000000000000000000000000000000000000000000000000 * (t ^ 14 * s ^ 7) +
        5209783069153417481249791466402246938948122266490086170886195500181676233270012197573719298457892623312735851354115226914690360219148429 / 876198266682395793326677990328137996893207193732568605635867333099520000000000000000000000000000000000000000000000000000000000000000000 * (t ^ 15 * s ^ 6) +
        147710332617378986710443566659027785549755285276863165543307469125040437267184926870435535223660644140773285094086836194419630569050931 / 67399866667876599486667537717549076684092861056351431202759025623040000000000000000000000000000000000000000000000000000000000000000000 * (t ^ 16 * s ^ 5) +
        55490816885308852453333396876875635191756630468156190223939719903124095291539613053216963858069400730442879381107157337582373328505859 / 87619826668239579332667799032813799689320719373256860563586733309952000000000000000000000000000000000000000000000000000000000000000000 * (t ^ 17 * s ^ 4) +
        3028201729182227553044836616343599829104796268586979880784470891979019600764585471692683976800461563116481992847826717315878761125651 / 21904956667059894833166949758203449922330179843314215140896683327488000000000000000000000000000000000000000000000000000000000000000000 * (t ^ 18 * s ^ 3) +
        4461240558805760332007515957456510341517438612703013010953275721272940079116648770081515381178476673260057816755437867446539076220703 / 208097088337069000915086022702932774262136708511485043838518491611136000000000000000000000000000000000000000000000000000000000000000000 * (t ^ 19 * s ^ 2) +
        4381640313044366041806070470944033208318408122392852633577068909023997397140126657407918884752126807518138600709502530456656446769531 / 2080970883370690009150860227029327742621367085114850438385184916111360000000000000000000000000000000000000000000000000000000000000000000 * (t ^ 20 * s) +
        102478585079806657145186867878061818449063825958377392531705278825790251688989036775033204985822441683929799230777750907576782390811 / 1040485441685345004575430113514663871310683542557425219192592458055680000000000000000000000000000000000000000000000000000000000000000000 * (t ^ 21) := by
    rw [sinP, sinQ, hv, hst]; ring
  have a0 : 0 ≤ 1 / 8000 + (sinP (4272283 / 16777216 * v) - sinQ v) := by rw [a]; positivity
  have b0 : 0 ≤ 1 / 8000 - (sinP (4272283 / 16777216 * v) - sinQ v) := by rw [b]; positivity
  rw [abs_le]
  constructor <;> linarith

theorem sinPQ_2 (v : ℝ) (h0 : 3927 / 4000 ≤ v) (h1 : v ≤ 11781 / 8000) : |sinP (4272283 / 16777216 * v) - sinQ v| ≤ 1 / 8000 := by
  obtain ⟨t, ht, hv⟩ : ∃ t : ℝ, 0 ≤ t ∧ v = 3927 / 4000 + t * (3927 / 8000) := ⟨(v - (3927 / 4000)) * (8000 / 3927), mul_nonneg (by linarith) (by norm_num), by ring⟩
  obtain ⟨s, hs, hst⟩ : ∃ s : ℝ, 0 ≤ s ∧ s = 1 - t := ⟨1 - t, by linarith, rfl⟩
  have a : 1 / 8000 + (sinP (4272283 / 16777216 * v) - sinQ v) = 157642775341529593998670660500604149378607059680978912266442835688129748311010963224966795014177558316070200769222249092423217609189 / 1040485441685345004575430113514663871310683542557425219192592458055680000000000000000000000000000000000000000000000000000000000000000000 * (s ^ 21) +
        6698536304036729389652389761090811107359223938742116462436046297242256255265047568305129665943041706068035465324171454220206725941407 / 2080970883370690009150860227029327742621367085114850438385184916111360000000000000000000000000000000000000000000000000000000000000000000 * (t * s ^ 20) +
        6774015537660307982867388314709207641075648312713960379550733881674927225693699681344581720211860353912290315311910101907187269201173 / 208097088337069000915086022702932774262136708511485043838518491611136000000000000000000000000000000000000000000000000000000000000000000 * (t ^ 2 * s ^ 19) +
        4564557032234838390969488943986623896166794580143189512834084028491982083085459413022535613279342393021084503807879287885774774857423 / 21904956667059894833166949758203449922330179843314215140896683327488000000000000000000000000000000000000000000000000000000000000000000 * (t ^ 3 * s ^ 18) +
        82996686958702086978206832705793657648475864582636860990670423144306075314766892977826185760940306807189198038870972507957816682025421 / 87619826668239579332667799032813799689320719373256860563586733309952000000000000000000000000000000000000000000000000000000000000000000 * (t ^ 4 * s ^ 17) +
        2848685438247815800188464348379581190332543005099598929443362451035040998192789906929600334497524030488436422026722750620847535209358971 / 876198266682395793326677990328137996893207193732568605635867333099520000000000000000000000000000000000000000000000000000000000000000000 * (t ^ 5 * s ^ 16) +
        7663081648190394088803451085684521781841351868273261310747398459624674734073798555417437562623264496171458148044203043423215195830170259 / 876198266682395793326677990328137996893207193732568605635867333099520000000000000000000000000000000000000000000000000000000000000000000 * (t ^ 6 * s ^ 15) +
        6620692578468687978228080336826580573091312190466286764289890956033007415597686551567177844370568479413411646298609954789878075532165333 / 350479306672958317330671196131255198757282877493027442254346933239808000000000000000000000000000000000000000000000000000000000000000000 * (t ^ 7 * s ^ 14) +
        93348393676805630959130548724895628079896502431682062315554377742991787937125489074181128428787750686302199567794582769155765001383628243 / 2803834453383666538645369569050041590058263019944219538034775465918464000000000000000000000000000000000000000000000000000000000000000000 * (t ^ 8 * s ^ 13) +
        20872354378438020878035906482329378318245451203232377151082648213774992405278258135981980628292474377164031937779188782614571925726563581 / 431359146674410236714672241392314090778194310760649159697657763987456000000000000000000000000000000000000000000000000000000000000000000 * (t ^ 9 * s ^ 12) +
        15735683001119484343940947372794222704856065528463844837776407165485317654212743787992683050101949860804149588596999160277208324794624263 / 269599466671506397946670150870196306736371444225405724811036102492160000000000000000000000000000000000000000000000000000000000000000000 * (t ^ 10 * s ^ 11) +
        63204696417729902293808594034188236375253129064682391226232898863118710269721397366400558510913422398814348492637350768113164167784542453 / 1078397866686025591786680603480785226945485776901622899244144409968640000000000000000000000000000000000000000000000000000000000000000000 * (t ^ 11 * s ^ 10) +
        10566442588425471459718259167545435312750006555850195083229982985671346477440654603870977798249549195450002515962352712870737098206569207 / 215679573337205118357336120696157045389097155380324579848828881993728000000000000000000000000000000000000000000000000000000000000000000 * (t ^ 12 * s ^ 9) +
        190561870619459465502255089513282701057399778192983773076040991561411072930751958812053947709696566977005824302264446334705898250767149839 / 5607668906767333077290739138100083180116526039888439076069550931836928000000000000000000000000000000000000000000000000000000000000000000 * (t ^ 13 * s ^ 8) +
        3405373507803421620539103904242898446195070471606048684550483612963266784966267786552034990236117630160593721158933558771708607853487691 / 175239653336479158665335598065627599378641438746513721127173466619904000000000000000000000000000000000000000000000000000000000000000000 * (t ^ 14 * s ^ 7) +
        63534471847399489445197869771100035800233893591171954499272955529362548899944555268892949224487187874031216764621408434543439433124514723 / 7009586133459166346613423922625103975145657549860548845086938664796160000000000000000000000000000000000000000000000000000000000000000000 * (t ^ 15 * s ^ 6) +
        47565248760707411753382567790124872824325638927298226689850344061289662242635457824599873600432147825891872511004059236432290778153838829 / 14019172266918332693226847845250207950291315099721097690173877329592320000000000000000000000000000000000000000000000000000000000000000000 * (t ^ 16 * s ^ 5) +
        5578432676303469743243087860385595744911976477315602749780755076608329078085790740050929970967053424040794531534034253280281627143603911 / 5607668906767333077290739138100083180116526039888439076069550931836928000000000000000000000000000000000000000000000000000000000000000000 * (t ^ 17 * s ^ 4) +
        154260747264450235851816000679558046132158264794916834293346375729962314321772905578666072051775419564284222941707603813230685988072689 / 700958613345916634661342392262510397514565754986054884508693866479616000000000000000000000000000000000000000000000000000000000000000000 * (t ^ 18 * s ^ 3) +
        1840221082553234120975306457221687562671208032998728001334604423759725334410437874414994726431853251251130282691146162016241053051511527 / 53272854614289664234262021811950790211106997378940171222660733852450816000000000000000000000000000000000000000000000000000000000000000000 * (t ^ 19 * s ^ 2) +
        913366883812603016147646426698887949836401271880056962449636184618091331648960191981457437610879620216810186278023128405031974483567239 / 266364273071448321171310109059753951055534986894700856113303669262254080000000000000000000000000000000000000000000000000000000000000000000 * (t ^ 20 * s) +
        86222120267445425263546608025910387225218176933250018520511789520372823315284200880777774924827600984129578458957007730590370402406927 / 532728546142896642342620218119507902111069973789401712226607338524508160000000000000000000000000000000000000000000000000000000000000000000 * (t ^ 21) := by
    rw [sinP, sinQ, hv, hst]; ring
  have b : 1 / 8000 - (sinP (4272283 / 16777216 * v) - sinQ v) = 102478585079806657145186867878061818449063825958377392531705278825790251688989036775033204985822441683929799230777750907576782390811 / 1040485441685345004575430113514663871310683542557425219192592458055680000000000000000000000000000000000000000000000000000000000000000000 * (s ^ 21) +
        4226560833659393158389626430813159541402953258110848339086174512342383744734952431694870334056958293931964534675828545779793274058593 / 2080970883370690009150860227029327742621367085114850438385184916111360000000000000000000000000000000000000000000000000000000000000000000 * (t * s ^ 20) +
        4151081600035814565174627877194763007686528884139004421971486927909712774306300318655418279788139646087709684688089898092812730798827 / 208097088337069000915086022702932774262136708511485043838518491611136000000000000000000000000000000000000000000000000000000000000000000 * (t ^ 2 * s ^ 19) +
        2718841059562576641058521850616023203007990217758787021514063177897777916914540586977464386720657606978915496192120712114225225142577 / 21904956667059894833166949758203449922330179843314215140896683327488000000000000000000000000000000000000000000000000000000000000000000 * (t ^ 3 * s ^ 18) +
        48104478693651383598297361597053990136670261779598716627596226570709604685233107022173814239059693192810801961129027492042183317974579 / 87619826668239579332667799032813799689320719373256860563586733309952000000000000000000000000000000000000000000000000000000000000000000 * (t ^ 4 * s ^ 17) +
        1608754193932202199412678257917238834362425291216410709577703639275492121807210093070399665502475969511563577973277249379152464790641029 / 876198266682395793326677990328137996893207193732568605635867333099520000000000000000000000000000000000000000000000000000000000000000000 * (t ^ 5 * s ^ 16) +
        4223424037622987243466262531106998284011896921902764393308777781203413585926201444582562437376735503828541851955796956576784804169829741 / 876198266682395793326677990328137996893207193732568605635867333099520000000000000000000000000000000000000000000000000000000000000000000 * (t ^ 6 * s ^ 15) +
        3567740866514210306574531334709008054782901058256020982043974393248211144402313448432822155629431520586588353701390045210121924467834667 / 350479306672958317330671196131255198757282877493027442254346933239808000000000000000000000000000000000000000000000000000000000000000000 * (t ^ 7 * s ^ 14) +
        49289674552954945028106014676602612710342483050430246133119737146945271902874510925818871571212249313697800432205417230844234998616371757 / 2803834453383666538645369569050041590058263019944219538034775465918464000000000000000000000000000000000000000000000000000000000000000000 * (t ^ 8 * s ^ 13) +
        10824994117064329341349996495781341857363212237237024726400488428433243114721741864018019371707525622835968062220811217385428074273436419 / 431359146674410236714672241392314090778194310760649159697657763987456000000000000000000000000000000000000000000000000000000000000000000 * (t ^ 9 * s ^ 12) +
        8037328370507278320598479860788817426850432051888206570335945316170858985787256212007316949898050139195850411403000839722791675205375737 / 269599466671506397946670150870196306736371444225405724811036102492160000000000000000000000000000000000000000000000000000000000000000000 * (t ^ 10 * s ^ 11) +
        31887349068777148364349114900143924151572861256725814406216511063505996290278602633599441489086577601185651507362649231886835832215457547 / 1078397866686025591786680603480785226945485776901622899244144409968640000000000000000000000000000000000000000000000000000000000000000000 * (t ^ 11 * s ^ 10) +
        5282231659325703649974692321509924775054325164384505855511585335432771282559345396129022201750450804549997484037647287129262901793430793 / 215679573337205118357336120696157045389097155380324579848828881993728000000000000000000000000000000000000000000000000000000000000000000 * (t ^ 12 * s ^ 9) +
        94714265840061686472218037289713780523078192771240843821307238218463046749248041187946052290303433022994175697735553665294101749232850161 / 5607668906767333077290739138100083180116526039888439076069550931836928000000000000000000000000000000000000000000000000000000000000000000 * (t ^ 13 * s ^ 8) +
        1688843214688027521862201931524895867742036152755105188616449061677342495033732213447965009763882369839406278841066441228291392146512309 / 175239653336479158665335598065627599378641438746513721127173466619904000000000000000000000000000000000000000000000000000000000000000000 * (t ^ 14 * s ^ 7) +
        31557573639107561212959839163232124726592096730236251133176454397262157660055444731107050775512812125968783235378591565456560566875485277 / 7009586133459166346613423922625103975145657549860548845086938664796160000000000000000000000000000000000000000000000000000000000000000000 * (t ^ 15 * s ^ 6) +
        23753785354172876240235713910624247570793853813757927534486713383678867677364542175400126399567852174108127488995940763567709221846161171 / 14019172266918332693226847845250207950291315099721097690173877329592320000000000000000000000000000000000000000000000000000000000000000000 * (t ^ 16 * s ^ 5) +
        2812041925447152373653180574996653713337375609867474217788310505152674441914209259949070029032946575959205468465965746719718372856396089 / 5607668906767333077290739138100083180116526039888439076069550931836928000000000000000000000000000000000000000000000000000000000000000000 * (t ^ 17 * s ^ 4) +
        78807991673067045173080344747726661041434848737946414805794334874510005678227094421333927948224580435715777058292396186769314011927311 / 700958613345916634661342392262510397514565754986054884508693866479616000000000000000000000000000000000000000000000000000000000000000000 * (t ^ 18 * s ^ 3) +
        956603784696973251323449687905728923411909329395630987855084103493942505589562125585005273568146748748869717308853837983758946948488473 / 53272854614289664234262021811950790211106997378940171222660733852450816000000000000000000000000000000000000000000000000000000000000000000 * (t ^ 19 * s ^ 2) +
        485045549812500670001731645864820293205157409317122532145208079008742588351039808018542562389120379783189813721976871594968025516432761 / 266364273071448321171310109059753951055534986894700856113303669262254080000000000000000000000000000000000000000000000000000000000000000000 * (t ^ 20 * s) +
        46960016268278735322108446503966588302549316514100409536140045110754216684715799119222225075172399015870421541042992269409629597593073 / 532728546142896642342620218119507902111069973789401712226607338524508160000000000000000000000000000000000000000000000000000000000000000000 * (t ^ 21) := by
    rw [sinP, sinQ, hv, hst]; ring
  have a0 : 0 ≤ 1 / 8000 + (sinP (4272283 / 16777216 * v) - sinQ v) := by rw [a]; positivity
  have b0 : 0 ≤ 1 / 8000 - (sinP (4272283 / 16777216 * v) - sinQ v) := by rw [b]; positivity
  rw [abs_le]
  constructor <;> linarith

theorem sinPQ_3 (v : ℝ) (h0 : 11781 / 8000 ≤ v) (h1 : v ≤ 3927 / 2000) : |sinP (4272283 / 16777216 * v) - sinQ v| ≤ 1 / 8000 := by
  obtain ⟨t, ht, hv⟩ : ∃ t : ℝ, 0 ≤ t ∧ v = 11781 / 8000 + t * (3927 / 8000) := ⟨(v - (11781 / 8000)) * (8000 / 3927), mul_nonneg (by linarith) (by norm_num), by ring⟩
  obtain ⟨s, hs, hst⟩ : ∃ s : ℝ, 0 ≤ s ∧ s = 1 - t := ⟨1 - t, by linarith, rfl⟩
  have a : 1 / 8000 + (sinP (4272283 / 16777216 * v) - sinQ v) = 86222120267445425263546608025910387225218176933250018520511789520372823315284200880777774924827600984129578458957007730590370402406927 / 532728546142896642342620218119507902111069973789401712226607338524508160000000000000000000000000000000000000000000000000000000000000000000 * (s ^ 21) +
        224324410450937728596708085461307545473295110929548356620277848827434489493002006628718958952625000112477740340018508484341450991744557 / 66591068267862080292827527264938487763883746723675214028325917315563520000000000000000000000000000000000000000000000000000000000000000000 * (t * s ^ 20) +
        1775944114517825713932050117807056490898324720351273857460505266526311839702629212548668319230334772183533383019349784145576370985155483 / 53272854614289664234262021811950790211106997378940171222660733852450816000000000000000000000000000000000000000000000000000000000000000000 * (t ^ 2 * s ^ 19) +
        292451420262393492060393773792510513367395370019667001523697040397874431999008919993610529779956758810949288546434657226182154408491149 / 1401917226691833269322684784525020795029131509972109769017387732959232000000000000000000000000000000000000000000000000000000000000000000 * (t ^ 3 * s ^ 18) +
        5192710945539868093449011548565566925608252740033052447734253766941676856172838518658890626086501389983377999332991158908154147068771951 / 5607668906767333077290739138100083180116526039888439076069550931836928000000000000000000000000000000000000000000000000000000000000000000 * (t ^ 4 * s ^ 17) +
        21733178782169368909707239478820234421830539264845494293260807482407665748201068806053649799236905141250723505589436355222965291408530639 / 7009586133459166346613423922625103975145657549860548845086938664796160000000000000000000000000000000000000000000000000000000000000000000 * (t ^ 5 * s ^ 16) +
        56975136457360531567682750130048418620448506262228890104158300418966684186355289299076033536470025080361996371409518808006212090195739147 / 7009586133459166346613423922625103975145657549860548845086938664796160000000000000000000000000000000000000000000000000000000000000000000 * (t ^ 6 * s ^ 15) +
        11981391042495753117205231170845527466661228636944697420584702527687945716671342903227205919172426783821693935400745328334905946090025917 / 700958613345916634661342392262510397514565754986054884508693866479616000000000000000000000000000000000000000000000000000000000000000000 * (t ^ 7 * s ^ 14) +
        164317032366064929748873188774971678548775684123161597038385572113364206114262566663227195932816490570533555838945309901353520742960468159 / 5607668906767333077290739138100083180116526039888439076069550931836928000000000000000000000000000000000000000000000000000000000000000000 * (t ^ 8 * s ^ 13) +
        1115760821734935595962648089776586773364447543318209167753372845103299332796773142847027726178869988649610138839981111514957151645632373 / 26959946667150639794667015087019630673637144422540572481103610249216000000000000000000000000000000000000000000000000000000000000000000 * (t ^ 9 * s ^ 12) +
        52270203293589263588005058129434114716872006982564094546171860373498892841119529491193278236453377205749232772356293794586922415050612497 / 1078397866686025591786680603480785226945485776901622899244144409968640000000000000000000000000000000000000000000000000000000000000000000 * (t ^ 10 * s ^ 11) +
        25459303722146783311705091449296877540314485483412753188530507845489645022325505683304545501800108824289882933012937785520648061882621873 / 539198933343012795893340301740392613472742888450811449622072204984320000000000000000000000000000000000000000000000000000000000000000000 * (t ^ 11 * s ^ 10) +
        16502543080060193684314525208345401317510542314865397576075453790984135136340162369527719826898927166013983951197884771471970972715380901 / 431359146674410236714672241392314090778194310760649159697657763987456000000000000000000000000000000000000000000000000000000000000000000 * (t ^ 12 * s ^ 9) +
        36032878829207720370132244677687610873742690483271176324787858782754578072044473082586267906743695371724200789773966790072180337034705203 / 1401917226691833269322684784525020795029131509972109769017387732959232000000000000000000000000000000000000000000000000000000000000000000 * (t ^ 13 * s ^ 8) +
        1246458687921404378325429255447682504356323989587558320279292832849016076179936981481217504277773167024286364763049428306299026850344593 / 87619826668239579332667799032813799689320719373256860563586733309952000000000000000000000000000000000000000000000000000000000000000000 * (t ^ 14 * s ^ 7) +
        702927130642318127981746392650344122388393479842995753276751114225975304012867853984495178577650856814778427061741109802994927227302739 / 109524783335299474165834748791017249611650899216571075704483416637440000000000000000000000000000000000000000000000000000000000000000000 * (t ^ 15 * s ^ 6) +
        127180422875798621330020647825862350184124384654239351698470155765427177449964878726910720128228509013211367720476997107775403538642091 / 54762391667649737082917374395508624805825449608285537852241708318720000000000000000000000000000000000000000000000000000000000000000000 * (t ^ 16 * s ^ 5) +
        1801507873039434144106170574049367714853234441466650376764348234696088083523837254363108862383345236153552756824706240115913633327541 / 2738119583382486854145868719775431240291272480414276892612085415936000000000000000000000000000000000000000000000000000000000000000000 * (t ^ 17 * s ^ 4) +
        48118063094111633668445597220504318330112392882296342127812953926663635659329716449049275023941309499430844984055928705332651457733 / 342264947922810856768233589971928905036409060051784611576510676992000000000000000000000000000000000000000000000000000000000000000000 * (t ^ 18 * s ^ 3) +
        34644927403839008134755208603687501254643357426857934756579801322451556973491806404707034817837778079705407688094360014896911332733 / 1625758502633351569649109552366662298922943035245976904988425715712000000000000000000000000000000000000000000000000000000000000000000 * (t ^ 19 * s ^ 2) +
        16604921556499711885731411534853626533489094198869043665090766465943768307238070718944616341951873626149289649362012655773272487447 / 8128792513166757848245547761833311494614715176229884524942128578560000000000000000000000000000000000000000000000000000000000000000000 * (t ^ 20 * s) +
        189243296708858150899145249855471240776389090341668206402503984384921699240961910629573343821863434907803741600474318442019191269 / 2032198128291689462061386940458327873653678794057471131235532144640000000000000000000000000000000000000000000000000000000000000000000 * (t ^ 21) := by
    rw [sinP, sinQ, hv, hst]; ring
  have b : 1 / 8000 - (sinP (4272283 / 16777216 * v) - sinQ v) = 46960016268278735322108446503966588302549316514100409536140045110754216684715799119222225075172399015870421541042992269409629597593073 / 532728546142896642342620218119507902111069973789401712226607338524508160000000000000000000000000000000000000000000000000000000000000000000 * (s ^ 21) +
        125278697955338192940636432679619515287094559369746517028433217079273990506997993371281041047374999887522259659981491515658549008255443 / 66591068267862080292827527264938487763883746723675214028325917315563520000000000000000000000000000000000000000000000000000000000000000000 * (t * s ^ 20) +
        1020880752732381658366706027320359995184792642043085131729183260727356000297370787451331680769665227816466616980650215854423629014844517 / 53272854614289664234262021811950790211106997378940171222660733852450816000000000000000000000000000000000000000000000000000000000000000000 * (t ^ 2 * s ^ 19) +
        173686057612641069989398917062058900979790857046059496674584380811070208000991080006389470220043241189050711453565342773817845591508851 / 1401917226691833269322684784525020795029131509972109769017387732959232000000000000000000000000000000000000000000000000000000000000000000 * (t ^ 3 * s ^ 18) +
        3197763656210754023447256886816682532641099347150024519834811814819326663827161481341109373913498610016622000667008841091845852931228049 / 5607668906767333077290739138100083180116526039888439076069550931836928000000000000000000000000000000000000000000000000000000000000000000 * (t ^ 4 * s ^ 17) +
        13926338275270775087101901371554325775729207105682582818907721240076599211798931193946350200763094858749276494410563644777034708591469361 / 7009586133459166346613423922625103975145657549860548845086938664796160000000000000000000000000000000000000000000000000000000000000000000 * (t ^ 5 * s ^ 16) +
        38116909029146519090474958804283741906377484059179315528291109507658022373644710700923966463529974919638003628590481191993787909804260853 / 7009586133459166346613423922625103975145657549860548845086938664796160000000000000000000000000000000000000000000000000000000000000000000 * (t ^ 6 * s ^ 15) +
        8395475847470043452399992172225649789087197860499918072083028170874491403328657096772794080827573216178306064599254671665094053909974083 / 700958613345916634661342392262510397514565754986054884508693866479616000000000000000000000000000000000000000000000000000000000000000000 * (t ^ 7 * s ^ 14) +
        120959104093456222225599938028024803031702286841063019858962657666509913565737433336772804067183509429466444161054690098646479257039531841 / 5607668906767333077290739138100083180116526039888439076069550931836928000000000000000000000000000000000000000000000000000000000000000000 * (t ^ 8 * s ^ 13) +
        865323459233961292748970846355333237611093921711128449589323195034715387203226857152972273821130011350389861160018888485042848354367627 / 26959946667150639794667015087019630673637144422540572481103610249216000000000000000000000000000000000000000000000000000000000000000000 * (t ^ 9 * s ^ 12) +
        42821842192917787070152650804898045809953983338844111086277549553125813718880470508806721763546622794250767227643706205413077584949387503 / 1078397866686025591786680603480785226945485776901622899244144409968640000000000000000000000000000000000000000000000000000000000000000000 * (t ^ 10 * s ^ 11) +
        22086719021106742017373763017869202723098509677291349627694197117822708257674494316695454498199891175710117066987062214479351938117378127 / 539198933343012795893340301740392613472742888450811449622072204984320000000000000000000000000000000000000000000000000000000000000000000 * (t ^ 11 * s ^ 10) +
        15194805415442156535071377769765318858098121125604004301407682851224100383659837630472280173101072833986016048802115228528029027284619099 / 431359146674410236714672241392314090778194310760649159697657763987456000000000000000000000000000000000000000000000000000000000000000000 * (t ^ 12 * s ^ 9) +
        35286155285672567623486037023061509521376802257784977899549198662213951847955526917413732093256304628275799210226033209927819662965294797 / 1401917226691833269322684784525020795029131509972109769017387732959232000000000000000000000000000000000000000000000000000000000000000000 * (t ^ 13 * s ^ 8) +
        1300649673324320192875223662436214652612229322593018616304173504471288563820063018518782495722226832975713635236950571693700973149655407 / 87619826668239579332667799032813799689320719373256860563586733309952000000000000000000000000000000000000000000000000000000000000000000 * (t ^ 14 * s ^ 7) +
        782886080084354538551967809448595885843262618929007459730270915877535735987132146015504821422349143185221572938258890197005072772697261 / 109524783335299474165834748791017249611650899216571075704483416637440000000000000000000000000000000000000000000000000000000000000000000 * (t ^ 15 * s ^ 6) +
        151409554135452503645050765067688901359311133865511250740346474878981142550035121273089279871771490986788632279523002892224596461357909 / 54762391667649737082917374395508624805825449608285537852241708318720000000000000000000000000000000000000000000000000000000000000000000 * (t ^ 16 * s ^ 5) +
        2295403553596611811409585497914621278432582007353211423806484568898151916476162745636891137616654763846447243175293759884086366672459 / 2738119583382486854145868719775431240291272480414276892612085415936000000000000000000000000000000000000000000000000000000000000000000 * (t ^ 17 * s ^ 4) +
        65685032090222976206992071445162042594493619584922041221376846173176364340670283550950724976058690500569155015944071294667348542267 / 342264947922810856768233589971928905036409060051784611576510676992000000000000000000000000000000000000000000000000000000000000000000 * (t ^ 18 * s ^ 3) +
        50707393984411949271823042895562269438811151923555852755312548752428443026508193595292965182162221920294592311905639985103088667267 / 1625758502633351569649109552366662298922943035245976904988425715712000000000000000000000000000000000000000000000000000000000000000000 * (t ^ 19 * s ^ 2) +
        26071239137625766817557714214771258813238160476337850090855408571496231692761929281055383658048126373850710350637987344226727512553 / 8128792513166757848245547761833311494614715176229884524942128578560000000000000000000000000000000000000000000000000000000000000000000 * (t ^ 20 * s) +
        318806235364064214616201485259110727637030608172699576406379051775078300759038089370426656178136565092196258399525681557980808731 / 2032198128291689462061386940458327873653678794057471131235532144640000000000000000000000000000000000000000000000000000000000000000000 * (t ^ 21) := by
    rw [sinP, sinQ, hv, hst]; ring
  have a0 : 0 ≤ 1 / 8000 + (sinP (4272283 / 16777216 * v) - sinQ v) := by rw [a]; positivity
  have b0 : 0 ≤ 1 / 8000 - (sinP (4272283 / 16777216 * v) - sinQ v) := by rw [b]; positivity
  rw [abs_le]
  constructor <;> linarith

theorem sinPQ_4 (v : ℝ) (h0 : 3927 / 2000 ≤ v) (h1 : v ≤ 3927 / 1600) : |sinP (4272283 / 16777216 * v) - sinQ v| ≤ 1 / 8000 := by
  obtain ⟨t, ht, hv⟩ : ∃ t : ℝ, 0 ≤ t ∧ v = 3927 / 2000 + t * (3927 / 8000) := ⟨(v - (3927 / 2000)) * (8000 / 3927), mul_nonneg (by linarith) (by norm_num), by ring⟩
  obtain ⟨s, hs, hst⟩ : ∃ s : ℝ, 0 ≤ s ∧ s = 1 - t := ⟨1 - t, by linarith, rfl⟩
  have a : 1 / 8000 + (sinP (4272283 / 16777216 * v) - sinQ v) = 189243296708858150899145249855471240776389090341668206402503984384921699240961910629573343821863434907803741600474318442019191269 / 2032198128291689462061386940458327873653678794057471131235532144640000000000000000000000000000000000000000000000000000000000000000000 * (s ^ 21) +
        3037590458117691493064998088173108383388854595706243002105980582144615433048706053364741084024236687672347787903534568497190329149 / 1625758502633351569649109552366662298922943035245976904988425715712000000000000000000000000000000000000000000000000000000000000000000 * (t * s ^ 20) +
        1159082013607759618125180969109406511538562901820264805533453884062751696220545783848935645220600693142208193948680030469905118637 / 65030340105334062785964382094666491956917721409839076199537028628480000000000000000000000000000000000000000000000000000000000000000 * (t ^ 2 * s ^ 19) +
        294462832247067659819673521877472848853381616488217316121664558084223354694321725044597701640641875649755621513316200617570482879 / 2738119583382486854145868719775431240291272480414276892612085415936000000000000000000000000000000000000000000000000000000000000000 * (t ^ 3 * s ^ 18) +
        2017712262647072267962014989238569824294946656677345931603181000291257168207929925970610362293312790643121938433275350830308674661 / 4380991333411978966633389951640689984466035968662843028179336665497600000000000000000000000000000000000000000000000000000000000000 * (t ^ 4 * s ^ 17) +
        26097756870496898934409359004404146593748094828000595673019428008699260044994340942749587381111686180305634932881246721887917441737 / 17523965333647915866533559806562759937864143874651372112717346661990400000000000000000000000000000000000000000000000000000000000000 * (t ^ 5 * s ^ 16) +
        26469470623870490774991801173897755041050573434109088554501451892662027112127384310942039754215251040013092866585417671513967381691 / 7009586133459166346613423922625103975145657549860548845086938664796160000000000000000000000000000000000000000000000000000000000000 * (t ^ 6 * s ^ 15) +
        8632251466096082703274232360938961860563928243753801494210628168965071194987395085670837641173837988210659187563025914409489773939 / 1121533781353466615458147827620016636023305207977687815213910186367385600000000000000000000000000000000000000000000000000000000000 * (t ^ 7 * s ^ 14) +
        46028038472396073179599188025162845878516390590040189455544023748921288940499446520411870296431746053576889261597826829633668506323 / 3588908100331093169466073048384053235274576665528601008684512596375633920000000000000000000000000000000000000000000000000000000000 * (t ^ 8 * s ^ 13) +
        3902726160086948154285609211337630409565953731046735954306927511971840079437064544544987991459558710434456970352412909659585302647 / 220855883097298041197912187592864814478435487109452369765200775161577472000000000000000000000000000000000000000000000000000000000 * (t ^ 9 * s ^ 12) +
        1119870332194207717764454882909312994152099813658352583751794154172827121421240036505144552338699972274364641134702584879476851227 / 55213970774324510299478046898216203619608871777363092441300193790394368000000000000000000000000000000000000000000000000000000000 * (t ^ 10 * s ^ 11) +
        430053504270956689295782686055514334537165424419509834360820186990096746227466948580315806822997489159542895589058856826910274051 / 22085588309729804119791218759286481447843548710945236976520077516157747200000000000000000000000000000000000000000000000000000000 * (t ^ 11 * s ^ 10) +
        3457164343036915815874898594831894773601612534285055176280537361133893222995614654368828891820872007164284803004617507955012731 / 220855883097298041197912187592864814478435487109452369765200775161577472000000000000000000000000000000000000000000000000000000 * (t ^ 12 * s ^ 9) +
        48308705516471750397923635172290409762181360446094529400200177890842421745501099839137623950676573393448052459350541813281158533 / 4593802368423799256916573501931588141151458131876609291116176123360811417600000000000000000000000000000000000000000000000000000 * (t ^ 13 * s ^ 8) +
        674373536191356847302271450903926471626745234112354941843105339537246383314199006266196265175905080469078271452146804046705543 / 114845059210594981422914337548289703528786453296915232277904403084020285440000000000000000000000000000000000000000000000000000 * (t ^ 14 * s ^ 7) +
        619956227850989737866030168171049483057290180059654236500140909621077853050874624052501365448778619852664623143266670594920321 / 229690118421189962845828675096579407057572906593830464555808806168040570880000000000000000000000000000000000000000000000000000 * (t ^ 15 * s ^ 6) +
        46199443859806921532757183427234320966793268265974349953288447949867708816047577769528839841279655024314670112469812012874659 / 45938023684237992569165735019315881411514581318766092911161761233608114176000000000000000000000000000000000000000000000000000 * (t ^ 16 * s ^ 5) +
        2180275349364726304006094350010586814153338293144698953762977331730617080205108095487670165994320308708320801800085197463877 / 7350083789478078811066517603090541025842333011002574865785881797377298268160000000000000000000000000000000000000000000000000 * (t ^ 17 * s ^ 4) +
        24525304717636055359230937025475545978442488746735534459216521016990923780255338142644596053685624347016904519918684016191 / 367504189473903940553325880154527051292116650550128743289294089868864913408000000000000000000000000000000000000000000000000 * (t ^ 18 * s ^ 3) +
        30074609460698323411403172506165932330605713878174310832594196838787277248485338398948968273394549075462837148017600690849 / 2793031840001669948205276689174405589820086544180978448998635083003373341900800000000000000000000000000000000000000000000000 * (t ^ 19 * s ^ 2) +
        193797265014105571106653389478891647299391365818942649666053376141239460830626670564078080352179973944424959096303990783 / 174564490000104371762829793073400349363755409011311153062414692687710833868800000000000000000000000000000000000000000000000 * (t ^ 20 * s) +
        61393125651238143807727479562748424779579704343608924156326874471482012049062781075871426479870144435280822828431162709 / 1117212736000667979282110675669762235928034617672391379599454033201349336760320000000000000000000000000000000000000000000000 * (t ^ 21) := by
    rw [sinP, sinQ, hv, hst]; ring
  have b : 1 / 8000 - (sinP (4272283 / 16777216 * v) - sinQ v) = 318806235364064214616201485259110727637030608172699576406379051775078300759038089370426656178136565092196258399525681557980808731 / 2032198128291689462061386940458327873653678794057471131235532144640000000000000000000000000000000000000000000000000000000000000000000 * (s ^ 21) +
        5497641680707404247592827061751868685956596339335135749083254425343384566951293946635258915975763312327652212096465431502809670851 / 1625758502633351569649109552366662298922943035245976904988425715712000000000000000000000000000000000000000000000000000000000000000000 * (t * s ^ 20) +
        2255010841922278678137949090860584316199617472196286694942240118932448303779454216151064354779399306857791806051319969530094881363 / 65030340105334062785964382094666491956917721409839076199537028628480000000000000000000000000000000000000000000000000000000000000000 * (t ^ 2 * s ^ 19) +
        615961929227609219183827827447858038543466483249529750671853842714496645305678274955402298359358124350244378486683799382429517121 / 2738119583382486854145868719775431240291272480414276892612085415936000000000000000000000000000000000000000000000000000000000000000 * (t ^ 3 * s ^ 18) +
        4537346019970601260863194725903812564962359661434432949310151485459526831792070074029389637706687209356878061566724649169691325339 / 4380991333411978966633389951640689984466035968662843028179336665497600000000000000000000000000000000000000000000000000000000000000 * (t ^ 4 * s ^ 17) +
        63051035773103461057613493121532253900151271098319597107401893797511402355005659057250412618888313819694365067118753278112082558263 / 17523965333647915866533559806562759937864143874651372112717346661990400000000000000000000000000000000000000000000000000000000000000 * (t ^ 5 * s ^ 16) +
        68622574862636559883165907760434405485775416887299117077947958033962679447872615689057960245784748959986907133414582328486032618309 / 7009586133459166346613423922625103975145657549860548845086938664796160000000000000000000000000000000000000000000000000000000000000 * (t ^ 6 * s ^ 15) +
        23970735557849191808094124987974921748633554152157583294057740948734828197012604914329162358826162011789340812436974085590510226061 / 1121533781353466615458147827620016636023305207977687815213910186367385600000000000000000000000000000000000000000000000000000000000 * (t ^ 7 * s ^ 14) +
        136548688861697464084063613128754902332989510827063565358758843310198147654700553479588129703568253946423110738402173170366331493677 / 3588908100331093169466073048384053235274576665528601008684512596375633920000000000000000000000000000000000000000000000000000000000 * (t ^ 8 * s ^ 13) +
        12326316269610255158039973113455058320345681950473597806964438448838776506802935455455012008540441289565543029647587090340414697353 / 220855883097298041197912187592864814478435487109452369765200775161577472000000000000000000000000000000000000000000000000000000000 * (t ^ 9 * s ^ 12) +
        3748842396714953275933219814528493624821390890797747544629615634070357854450759963494855447661300027725635358865297415120523148773 / 55213970774324510299478046898216203619608871777363092441300193790394368000000000000000000000000000000000000000000000000000000000 * (t ^ 10 * s ^ 11) +
        1517431587292707708183287192919608313052230857362930216991743728307177244121333051419684193177002510840457104410941143173089725949 / 22085588309729804119791218759286481447843548710945236976520077516157747200000000000000000000000000000000000000000000000000000000 * (t ^ 11 * s ^ 10) +
        12771878086660287496450683729960793956310023147235278584990828599676723363244385345631171108179127992835715196995382492044987269 / 220855883097298041197912187592864814478435487109452369765200775161577472000000000000000000000000000000000000000000000000000000 * (t ^ 12 * s ^ 9) +
        185389505471167977299564750304724307948546193367798276762107491944830457096354900160862376049323426606551947540649458186718841467 / 4593802368423799256916573501931588141151458131876609291116176123360811417600000000000000000000000000000000000000000000000000000 * (t ^ 13 * s ^ 8) +
        2664172335060639262661848341624855209955076963228970860475575658115223314426600993733803734824094919530921728547853195953294457 / 114845059210594981422914337548289703528786453296915232277904403084020285440000000000000000000000000000000000000000000000000000 * (t ^ 14 * s ^ 7) +
        2496019918650873298100481638189146753085743870792249845663961354854560531507205375947498634551221380147335376856733329405079679 / 229690118421189962845828675096579407057572906593830464555808806168040570880000000000000000000000000000000000000000000000000000 * (t ^ 15 * s ^ 6) +
        187498767127832806164731202049780396743934285547918456209019221885805170025808422230471160158720344975685329887530187987125341 / 45938023684237992569165735019315881411514581318766092911161761233608114176000000000000000000000000000000000000000000000000000 * (t ^ 16 * s ^ 5) +
        8817287520641849117052182613613635195763252474567903689169148307595165453529291904512329834005679691291679198199914802536123 / 7350083789478078811066517603090541025842333011002574865785881797377298268160000000000000000000000000000000000000000000000000 * (t ^ 17 * s ^ 4) +
        97669838282437004874749918125904698576186297561182272684473763864406659927904661857355403946314375652983095480081315983809 / 367504189473903940553325880154527051292116650550128743289294089868864913408000000000000000000000000000000000000000000000000 * (t ^ 18 * s ^ 3) +
        116559562139389348869373853675490361134948829691327057739834145018889823201306661601051031726605450924537162851982399309151 / 2793031840001669948205276689174405589820086544180978448998635083003373341900800000000000000000000000000000000000000000000000 * (t ^ 19 * s ^ 2) +
        722666307486442380648203024156460186860324531490440903911623760469242416980573329435921919647820026055575040903696009217 / 174564490000104371762829793073400349363755409011311153062414692687710833868800000000000000000000000000000000000000000000000 * (t ^ 20 * s) +
        217910058348928851012800189354692134202428950074488920743536633828855322141017218924128573520129855564719177171568837291 / 1117212736000667979282110675669762235928034617672391379599454033201349336760320000000000000000000000000000000000000000000000 * (t ^ 21) := by
    rw [sinP, sinQ, hv, hst]; ring
  have a0 : 0 ≤ 1 / 8000 + (sinP (4272283 / 16777216 * v) - sinQ v) := by rw [a]; positivity
  have b0 : 0 ≤ 1 / 8000 - (sinP (4272283 / 16777216 * v) - sinQ v) := by rw [b]; positivity
  rw [abs_le]
  constructor <;> linarith

theorem sinPQ_5 (v : ℝ) (h0 : 3927 / 1600 ≤ v) (h1 : v ≤ 11781 / 4000) : |sinP (4272283 / 16777216 * v) - sinQ v| ≤ 1 / 8000 := by
  obtain ⟨t, ht, hv⟩ : ∃ t : ℝ, 0 ≤ t ∧ v = 3927 / 1600 + t * (3927 / 8000) := ⟨(v - (3927 / 1600)) * (8000 / 3927), mul_nonneg (by linarith) (by norm_num), by ring⟩
  obtain ⟨s, hs, hst⟩ : ∃ s : ℝ, 0 ≤ s ∧ s = 1 - t := ⟨1 - t, by linarith, rfl⟩
  have a : 1 / 8000 + (sinP (4272283 / 16777216 * v) - sinQ v) = 61393125651238143807727479562748424779579704343608924156326874471482012049062781075871426479870144435280822828431162709 / 1117212736000667979282110675669762235928034617672391379599454033201349336760320000000000000000000000000000000000000000000000 * (s ^ 21) +
        3345521953154315962104931122426318245065607102975854641757467801245779891861565283941250494751485582593687051444408231917 / 2793031840001669948205276689174405589820086544180978448998635083003373341900800000000000000000000000000000000000000000000000 * (t * s ^ 20) +
        2689994132251604607644054640111305392008662990433058136508190192192788278455085345943768650440513005009276251237576021433 / 214848603077051534477328976090338891524622041860075265307587314077182564761600000000000000000000000000000000000000000000000 * (t ^ 2 * s ^ 19) +
        15324029171310075627092840404373483362044430268229507392606561000574683652444207357562654714672334121350113282796001833377 / 183752094736951970276662940077263525646058325275064371644647044934432456704000000000000000000000000000000000000000000000000 * (t ^ 3 * s ^ 18) +
        2915872376787239879798940767403986952933960638208518388518070988111965637643784332084719726531940114256990502821213995332557 / 7350083789478078811066517603090541025842333011002574865785881797377298268160000000000000000000000000000000000000000000000000 * (t ^ 4 * s ^ 17) +
        131545392488446135834899595920983900815663940925858627690407329762212944777514108549095063994839607878593813070312045706220407 / 91876047368475985138331470038631762823029162637532185822323522467216228352000000000000000000000000000000000000000000000000000 * (t ^ 5 * s ^ 16) +
        933828264864490853516529243481469198598130227702655256189346433191916322601281160810093760746528148905164250803682833775103881 / 229690118421189962845828675096579407057572906593830464555808806168040570880000000000000000000000000000000000000000000000000000 * (t ^ 6 * s ^ 15) +
        33367195563552762496796739559291953917563237660411810888293503574656533563385867328232214297736446320357812062040991657451671 / 3588908100331093169466073048384053235274576665528601008684512596375633920000000000000000000000000000000000000000000000000000 * (t ^ 7 * s ^ 14) +
        79871090101537480220946743160336006808252035441213814370265928010302208152245960405923982545351725489960749987948763936515814773 / 4593802368423799256916573501931588141151458131876609291116176123360811417600000000000000000000000000000000000000000000000000000 * (t ^ 8 * s ^ 13) +
        23722240628193785217856357178857896922119731349026257927250769719292873943982591872368003552194784136461572018030474139022275341 / 883423532389192164791648750371459257913741948437809479060803100646309888000000000000000000000000000000000000000000000000000000 * (t ^ 9 * s ^ 12) +
        760846090540939042431982339606541915708900307621905704867987392468030634775028550648981790565421630544268569103130799244562739151 / 22085588309729804119791218759286481447843548710945236976520077516157747200000000000000000000000000000000000000000000000000000000 * (t ^ 10 * s ^ 11) +
        1016065452777061246018896502455781330480350005568925129411684679131080760821347138349506406052889832164849041845259029240148816539 / 27606985387162255149739023449108101809804435888681546220650096895197184000000000000000000000000000000000000000000000000000000000 * (t ^ 11 * s ^ 10) +
        7228037831917487553047595053415000476042315657583246668034457273906228598508739969456423758430597049964369023540735544614437106687 / 220855883097298041197912187592864814478435487109452369765200775161577472000000000000000000000000000000000000000000000000000000000 * (t ^ 12 * s ^ 9) +
        173252991319030197336263271280778971913237847204040571284976413691231616083604127399685697282697702222553759857371349129815777353049 / 7177816200662186338932146096768106470549153331057202017369025192751267840000000000000000000000000000000000000000000000000000000000 * (t ^ 13 * s ^ 8) +
        65785372932473001578603726368745735047832846059502895366879294900803678631650057795523641940375642154608448542405672633122163653271 / 4486135125413866461832591310480066544093220831910751260855640745469542400000000000000000000000000000000000000000000000000000000000 * (t ^ 14 * s ^ 7) +
        31311459173676844871052974405517080903595242691655439019077618290174948744733763850304532842712923739019865932175571745236807639069 / 4313591466744102367146722413923140907781943107606491596976577639874560000000000000000000000000000000000000000000000000000000000000 * (t ^ 15 * s ^ 6) +
        807471920098206679941962094744459251486443973956247368170351777023010011416557716774807698643482681206884839606977948910554074785737 / 280383445338366653864536956905004159005826301994421953803477546591846400000000000000000000000000000000000000000000000000000000000000 * (t ^ 16 * s ^ 5) +
        125279026204198407066828477149246544749050842292253792549081553824362412720775938604392461367183408486860237874886545785751907994983 / 140191722669183326932268478452502079502913150997210976901738773295923200000000000000000000000000000000000000000000000000000000000000 * (t ^ 17 * s ^ 4) +
        36604161603924279063639655158836758559803075502761463674141635533069465386246158051392433242921943168727345521426527899992903546661 / 175239653336479158665335598065627599378641438746513721127173466619904000000000000000000000000000000000000000000000000000000000000000 * (t ^ 18 * s ^ 3) +
        287849564546818407773364963200890639465880629921513656386686742736625013881406027195148046150029039991245230652646499549164106366199 / 8323883533482760036603440908117310970485468340459401753540739664445440000000000000000000000000000000000000000000000000000000000000000 * (t ^ 19 * s ^ 2) +
        1504045041691061397246113637548412334426970415520790686463491741070327698418285146757353748395234178658380532107414343780131047614069 / 416194176674138001830172045405865548524273417022970087677036983222272000000000000000000000000000000000000000000000000000000000000000000 * (t ^ 20 * s) +
        186464403731607609653608580863677446012221007116860915843501898670494924514255739077229897164322037513051954051203236990125972132367 / 1040485441685345004575430113514663871310683542557425219192592458055680000000000000000000000000000000000000000000000000000000000000000000 * (t ^ 21) := by
    rw [sinP, sinQ, hv, hst]; ring
  have b : 1 / 8000 - (sinP (4272283 / 16777216 * v) - sinQ v) = 217910058348928851012800189354692134202428950074488920743536633828855322141017218924128573520129855564719177171568837291 / 1117212736000667979282110675669762235928034617672391379599454033201349336760320000000000000000000000000000000000000000000000 * (s ^ 21) +
        11317895206854451265972771495739311101489847253974282215485366384521930153117634716058749505248514417406312948555591768083 / 2793031840001669948205276689174405589820086544180978448998635083003373341900800000000000000000000000000000000000000000000000 * (t * s ^ 20) +
        8589557529293600952415716604631486413033994207220893292140143796859296371528914654056231349559486994990723748762423978567 / 214848603077051534477328976090338891524622041860075265307587314077182564761600000000000000000000000000000000000000000000000 * (t ^ 2 * s ^ 19) +
        45773542328726454489897587171316638915269962885729396179238581440124108201635792642437345285327665878649886717203998166623 / 183752094736951970276662940077263525646058325275064371644647044934432456704000000000000000000000000000000000000000000000000 * (t ^ 3 * s ^ 18) +
        8081690493219335541259336196220235056982630129504084254414054651213816896090615667915280273468059885743009497178786004667443 / 7350083789478078811066517603090541025842333011002574865785881797377298268160000000000000000000000000000000000000000000000000 * (t ^ 4 * s ^ 17) +
        335851029486833319560077175033045534605791166701926984634208009909132812906197891450904936005160392121406186929687954293779593 / 91876047368475985138331470038631762823029162637532185822323522467216228352000000000000000000000000000000000000000000000000000 * (t ^ 5 * s ^ 16) +
        2182147881637372182449982562878727037544903823149248825974755831283722061956798839189906239253471851094835749196317166224896119 / 229690118421189962845828675096579407057572906593830464555808806168040570880000000000000000000000000000000000000000000000000000 * (t ^ 6 * s ^ 15) +
        70962362913072115939582003957232473631868706006504620434165277601983144491014132671767785702263553679642187937959008342548329 / 3588908100331093169466073048384053235274576665528601008684512596375633920000000000000000000000000000000000000000000000000000 * (t ^ 7 * s ^ 14) +
        153827120886102247476541642316678710902475518372678991792041741825370670689610039594076017454648274510039250012051236063484185227 / 4593802368423799256916573501931588141151458131876609291116176123360811417600000000000000000000000000000000000000000000000000000 * (t ^ 8 * s ^ 13) +
        41193929090595028031445972120312857997526811377055077117834694123949592400977408127631996447805215863538427981969525860977724659 / 883423532389192164791648750371459257913741948437809479060803100646309888000000000000000000000000000000000000000000000000000000 * (t ^ 9 * s ^ 12) +
        1186639001022725355047087539368580731880495974160534346484576522829243355573771449351018209434578369455731430896869200755437260849 / 22085588309729804119791218759286481447843548710945236976520077516157747200000000000000000000000000000000000000000000000000000000 * (t ^ 10 * s ^ 11) +
        1418290911677519250829940846263121979006395346659124934779020214990511727114652861650493593947110167835150958154740970759851183461 / 27606985387162255149739023449108101809804435888681546220650096895197184000000000000000000000000000000000000000000000000000000000 * (t ^ 11 * s ^ 10) +
        9001004597779715759277987271377688253869320023937087093236908686904387987731260030543576241569402950035630976459264455385562893313 / 220855883097298041197912187592864814478435487109452369765200775161577472000000000000000000000000000000000000000000000000000000000 * (t ^ 12 * s ^ 9) +
        191900463349156877191062331027056524509773955630166938343629320427007257106795872600314302717302297777446240142628650870184222646951 / 7177816200662186338932146096768106470549153331057202017369025192751267840000000000000000000000000000000000000000000000000000000000 * (t ^ 13 * s ^ 8) +
        64626575163308096466869703026909799388957083524142643786194181569995918936349942204476358059624357845391551457594327366877836346729 / 4486135125413866461832591310480066544093220831910751260855640745469542400000000000000000000000000000000000000000000000000000000000 * (t ^ 14 * s ^ 7) +
        27206722664173647841659461861764248651374597506134225985506633972363332215266236149695467157287076260980134067824428254763192360931 / 4313591466744102367146722413923140907781943107606491596976577639874560000000000000000000000000000000000000000000000000000000000000 * (t ^ 15 * s ^ 6) +
        618908762199399079930403539270523156415945880864875716316389371876360586983442283225192301356517318793115160393022051089445925214263 / 280383445338366653864536956905004159005826301994421953803477546591846400000000000000000000000000000000000000000000000000000000000000 * (t ^ 16 * s ^ 5) +
        84482838839567145855578233735309691707182959887323131640145085719662675279224061395607538632816591513139762125113454214248092005017 / 140191722669183326932268478452502079502913150997210976901738773295923200000000000000000000000000000000000000000000000000000000000000 * (t ^ 17 * s ^ 4) +
        21663023130455041192584431197984418233595202880454348600643542118048614613753841948607566757078056831272654478573472100007096453339 / 175239653336479158665335598065627599378641438746513721127173466619904000000000000000000000000000000000000000000000000000000000000000 * (t ^ 18 * s ^ 3) +
        149154320961026494148315684475268186484606457952604935674202089646760586118593972804851953849970960008754769347353500450835893633801 / 8323883533482760036603440908117310970485468340459401753540739664445440000000000000000000000000000000000000000000000000000000000000000 * (t ^ 19 * s ^ 2) +
        680974385848163112362289600832381795325465023849802273840952420846600301581714853242646251604765821341619467892585656219868952385931 / 416194176674138001830172045405865548524273417022970087677036983222272000000000000000000000000000000000000000000000000000000000000000000 * (t ^ 20 * s) +
        73656956689728641490248947514988521815449878522495388954646215843425075485744260922770102835677962486948045948796763009874027867633 / 1040485441685345004575430113514663871310683542557425219192592458055680000000000000000000000000000000000000000000000000000000000000000000 * (t ^ 21) := by
    rw [sinP, sinQ, hv, hst]; ring
  have a0 : 0 ≤ 1 / 8000 + (sinP (4272283 / 16777216 * v) - sinQ v) := by rw [a]; positivity
  have b0 : 0 ≤ 1 / 8000 - (sinP (4272283 / 16777216 * v) - sinQ v) := by rw [b]; positivity
  rw [abs_le]
  constructor <;> linarith

theorem sinPQ_6 (v : ℝ) (h0 : 11781 / 4000 ≤ v) (h1 : v ≤ 27489 / 8000) : |sinP (4272283 / 16777216 * v) - sinQ v| ≤ 1 / 8000 := by
  obtain ⟨t, ht, hv⟩ : ∃ t : ℝ, 0 ≤ t ∧ v = 11781 / 4000 + t * (3927 / 8000) := ⟨(v - (11781 / 4000)) * (8000 / 3927), mul_nonneg (by linarith) (by norm_num), by ring⟩
  obtain ⟨s, hs, hst⟩ : ∃ s : ℝ, 0 ≤ s ∧ s = 1 - t := ⟨1 - t, by linarith, rfl⟩
  have a : 1 / 8000 + (sinP (4272283 / 16777216 * v) - sinQ v) = 186464403731607609653608580863677446012221007116860915843501898670494924514255739077229897164322037513051954051203236990125972132367 / 1040485441685345004575430113514663871310683542557425219192592458055680000000000000000000000000000000000000000000000000000000000000000000 * (s ^ 21) +
        8142784704999732224672552604806843792891712520212363498536700782969935167106056348700542619826880257804461479764000188269926421048483 / 2080970883370690009150860227029327742621367085114850438385184916111360000000000000000000000000000000000000000000000000000000000000000000 * (t * s ^ 20) +
        8441358106759310671218092914151830228160736633254661542105652723652218697064411909706248909452144728806248404770019427467645025111251 / 208097088337069000915086022702932774262136708511485043838518491611136000000000000000000000000000000000000000000000000000000000000000000 * (t ^ 2 * s ^ 19) +
        5815661022428954566945316036761723656271367527651400369805725491406573369321712646096097488636430359622021298259285302000273546374723 / 21904956667059894833166949758203449922330179843314215140896683327488000000000000000000000000000000000000000000000000000000000000000000 * (t ^ 3 * s ^ 18) +
        107823818888925398773643152397373283088808956408298907544866247272518121264028310652410116076347028685321425807848748700728472349994183 / 87619826668239579332667799032813799689320719373256860563586733309952000000000000000000000000000000000000000000000000000000000000000000 * (t ^ 4 * s ^ 17) +
        3762931391334068373420711919883098106651191427547599553584559223459306128179245726169120749096241418546078609591329652358595007375831759 / 876198266682395793326677990328137996893207193732568605635867333099520000000000000000000000000000000000000000000000000000000000000000000 * (t ^ 5 * s ^ 16) +
        10262147840019959425963665016912256706050431221705077536130882333291763058189478190781520484849565356178758695674087921006915283524749153 / 876198266682395793326677990328137996893207193732568605635867333099520000000000000000000000000000000000000000000000000000000000000000000 * (t ^ 6 * s ^ 15) +
        8961100880380197661385449982904410478544334497450617673596335436637560330408001170577987285152754046381501217049757943806293982238249153 / 350479306672958317330671196131255198757282877493027442254346933239808000000000000000000000000000000000000000000000000000000000000000000 * (t ^ 7 * s ^ 14) +
        127290385206876620979973247783193530663720256501482290469574839544483693980171764053571896555219632137885943780869291534809687858715788249 / 2803834453383666538645369569050041590058263019944219538034775465918464000000000000000000000000000000000000000000000000000000000000000000 * (t ^ 8 * s ^ 13) +
        28577695027501602315754791515633315590582391373201740545606407060878593363619121095877796108051327062690374891980874887774300791087040009 / 431359146674410236714672241392314090778194310760649159697657763987456000000000000000000000000000000000000000000000000000000000000000000 * (t ^ 9 * s ^ 12) +
        5388926965384132642858961366371674434210555706971762012571249912523778406133418096555029964961800525724031377221561679179844037485895959 / 67399866667876599486667537717549076684092861056351431202759025623040000000000000000000000000000000000000000000000000000000000000000000 * (t ^ 10 * s ^ 11) +
        86299032791955586570948369938795246357803752650448485161077397521747409038931714741560431779364348200497846445360167332188421503650865193 / 1078397866686025591786680603480785226945485776901622899244144409968640000000000000000000000000000000000000000000000000000000000000000000 * (t ^ 11 * s ^ 10) +
        14322354768221733824837954699605581396099032595654465080352548379566075276576291624746185729869544681297242953145221856226815896440903041 / 215679573337205118357336120696157045389097155380324579848828881993728000000000000000000000000000000000000000000000000000000000000000000 * (t ^ 12 * s ^ 9) +
        255312977942668994008256715996358149970262860718919664547066131525772637452747094572962082792606737375855958985719939071909186301068432611 / 5607668906767333077290739138100083180116526039888439076069550931836928000000000000000000000000000000000000000000000000000000000000000000 * (t ^ 13 * s ^ 8) +
        8977560646139844686953213884787359744026211391317807258307430103686814898859782482354533532939387579406172490492136209912394509884901489 / 350479306672958317330671196131255198757282877493027442254346933239808000000000000000000000000000000000000000000000000000000000000000000 * (t ^ 14 * s ^ 7) +
        81979599388382485268482312113070149348258054603003646845985704955814008023365131443413317222277850100041581643233447972530763921873838783 / 7009586133459166346613423922625103975145657549860548845086938664796160000000000000000000000000000000000000000000000000000000000000000000 * (t ^ 15 * s ^ 6) +
        59748883958130193374251177316536498747510097310532962836203999087407424431486405605619681894195350221778344899699399466745588465347372607 / 14019172266918332693226847845250207950291315099721097690173877329592320000000000000000000000000000000000000000000000000000000000000000000 * (t ^ 16 * s ^ 5) +
        6780827283705414774235593148889866292793898107518180706936112992742113846281638879789959414829898026712981747050759249272698698838068299 / 5607668906767333077290739138100083180116526039888439076069550931836928000000000000000000000000000000000000000000000000000000000000000000 * (t ^ 17 * s ^ 4) +
        90127493513809504225661465606041998909478040516579259439311561878371062531834712818930744207675390107723106978895417743100334463164699 / 350479306672958317330671196131255198757282877493027442254346933239808000000000000000000000000000000000000000000000000000000000000000000 * (t ^ 18 * s ^ 3) +
        2052128374060941442418526713137614874265746417045384295700584838728466661952071915148598538306010798694286870330820747533337794728970947 / 53272854614289664234262021811950790211106997378940171222660733852450816000000000000000000000000000000000000000000000000000000000000000000 * (t ^ 19 * s ^ 2) +
        964274839927603898852694521789954251976419267853853552331696793698051882187702122150002620520614698168337184008788786303268162368023417 / 266364273071448321171310109059753951055534986894700856113303669262254080000000000000000000000000000000000000000000000000000000000000000000 * (t ^ 20 * s) +
        85420664846165222580436359595843595464335582356787429165385031478790012197286278900149713189719798489965100731445701466414089125144963 / 532728546142896642342620218119507902111069973789401712226607338524508160000000000000000000000000000000000000000000000000000000000000000000 * (t ^ 21) := by
    rw [sinP, sinQ, hv, hst]; ring
  have b : 1 / 8000 - (sinP (4272283 / 16777216 * v) - sinQ v) = 73656956689728641490248947514988521815449878522495388954646215843425075485744260922770102835677962486948045948796763009874027867633 / 1040485441685345004575430113514663871310683542557425219192592458055680000000000000000000000000000000000000000000000000000000000000000000 * (s ^ 21) +
        2782312432696390323369463587097126855870464676640601302985520026614704832893943651299457380173119742195538520235999811730073578951517 / 2080970883370690009150860227029327742621367085114850438385184916111360000000000000000000000000000000000000000000000000000000000000000000 * (t * s ^ 20) +
        2483739030936811876823923277752140420601440563598303259416568085932421302935588090293751090547855271193751595229980572532354974888749 / 208097088337069000915086022702932774262136708511485043838518491611136000000000000000000000000000000000000000000000000000000000000000000 * (t ^ 2 * s ^ 19) +
        1467737069368460465082694757840923442903417270250576164542421714983186630678287353903902511363569640377978701740714697999726453625277 / 21904956667059894833166949758203449922330179843314215140896683327488000000000000000000000000000000000000000000000000000000000000000000 * (t ^ 3 * s ^ 18) +
        23277346763428071802861041905474364696337169953936670073400402442497558735971689347589883923652971314678574192151251299271527650005817 / 87619826668239579332667799032813799689320719373256860563586733309952000000000000000000000000000000000000000000000000000000000000000000 * (t ^ 4 * s ^ 17) +
        694508240845949626180430686413721918043776868768410085436506866851226991820754273830879250903758581453921390408670347641404992624168241 / 876198266682395793326677990328137996893207193732568605635867333099520000000000000000000000000000000000000000000000000000000000000000000 * (t ^ 5 * s ^ 16) +
        1624357845793421906306048599879263359802817568470948167925293907536325261810521809218479515150434643821241304325912078993084716475250847 / 876198266682395793326677990328137996893207193732568605635867333099520000000000000000000000000000000000000000000000000000000000000000000 * (t ^ 6 * s ^ 15) +
        1227332564602700623417161688631178149329878751271690072737529912643658229591998829422012714847245953618498782950242056193706017761750847 / 350479306672958317330671196131255198757282877493027442254346933239808000000000000000000000000000000000000000000000000000000000000000000 * (t ^ 7 * s ^ 14) +
        15347683022883955007263315618304710126518728980630017979099275345453365859828235946428103444780367862114056219130708465190312141284211751 / 2803834453383666538645369569050041590058263019944219538034775465918464000000000000000000000000000000000000000000000000000000000000000000 * (t ^ 8 * s ^ 13) +
        3119653468000747903631111462477404585026272067267661331876729581329642156380878904122203891948672937309625108019125112225699208912959991 / 431359146674410236714672241392314090778194310760649159697657763987456000000000000000000000000000000000000000000000000000000000000000000 * (t ^ 9 * s ^ 12) +
        554325877522558023275895442024085598716068688116250839456838207890265753866581903444970035038199474275968622778438320820155962514104041 / 67399866667876599486667537717549076684092861056351431202759025623040000000000000000000000000000000000000000000000000000000000000000000 * (t ^ 10 * s ^ 11) +
        8793012694551464087209338995536914169022237670959720471372012404877297521068285258439568220635651799502153554639832667811578496349134807 / 1078397866686025591786680603480785226945485776901622899244144409968640000000000000000000000000000000000000000000000000000000000000000000 * (t ^ 11 * s ^ 10) +
        1526319479529441284854996789449778691705299124580235858389019941538042483423708375253814270130455318702757046854778143773184103559096959 / 215679573337205118357336120696157045389097155380324579848828881993728000000000000000000000000000000000000000000000000000000000000000000 * (t ^ 12 * s ^ 9) +
        29963158516852157966216410806638331610215110245304952350282098254101482227252905427037917207393262624144041014280060928090813698931567389 / 5607668906767333077290739138100083180116526039888439076069550931836928000000000000000000000000000000000000000000000000000000000000000000 * (t ^ 13 * s ^ 8) +
        1210872798843053597849397786748228883848001857404500488026435245594403661140217517645466467060612420593827509507863790087605490115098511 / 350479306672958317330671196131255198757282877493027442254346933239808000000000000000000000000000000000000000000000000000000000000000000 * (t ^ 14 * s ^ 7) +
        13112446098124565389675396821262011178567935718404558786463704970810698536634868556586682777722149899958418356766552027469236078126161217 / 7009586133459166346613423922625103975145657549860548845086938664796160000000000000000000000000000000000000000000000000000000000000000000 * (t ^ 15 * s ^ 6) +
        11570150156750094619367104384212621647609395430523191388133058357561105488513594394380318105804649778221655100300600533254411534652627393 / 14019172266918332693226847845250207950291315099721097690173877329592320000000000000000000000000000000000000000000000000000000000000000000 * (t ^ 16 * s ^ 5) +
        1609647318045207342660675286492383165455453979664896260632952589018889673718361120210040585170101973287018252949240750727301301161931701 / 5607668906767333077290739138100083180116526039888439076069550931836928000000000000000000000000000000000000000000000000000000000000000000 * (t ^ 17 * s ^ 4) +
        26406875954949136286786707107600354677318516249852365110258793423865097468165287181069255792324609892276893021104582256899665536835301 / 350479306672958317330671196131255198757282877493027442254346933239808000000000000000000000000000000000000000000000000000000000000000000 * (t ^ 18 * s ^ 3) +
        744696493189265929880229431989801611817370945348974693489103688525201178047928084851401461693989201305713129669179252466662205271029053 / 53272854614289664234262021811950790211106997378940171222660733852450816000000000000000000000000000000000000000000000000000000000000000000 * (t ^ 19 * s ^ 2) +
        434137593697499787296683550773753991065139413343325942263147469928782037812297877849997379479385301831662815991211213696731837631976583 / 266364273071448321171310109059753951055534986894700856113303669262254080000000000000000000000000000000000000000000000000000000000000000000 * (t ^ 20 * s) +
        47761471689558938005218694934033380063431911090562998891266803152337027802713721099850286810280201510034899268554298533585910874855037 / 532728546142896642342620218119507902111069973789401712226607338524508160000000000000000000000000000000000000000000000000000000000000000000 * (t ^ 21) := by
    rw [sinP, sinQ, hv, hst]; ring
  have a0 : 0 ≤ 1 / 8000 + (sinP (4272283 / 16777216 * v) - sinQ v) := by rw [a]; positivity
  have b0 : 0 ≤ 1 / 8000 - (sinP (4272283 / 16777216 * v) - sinQ v) := by rw [b]; positivity
  rw [abs_le]
  constructor <;> linarith

theorem sinPQ_7 (v : ℝ) (h0 : 27489 / 8000 ≤ v) (h1 : v ≤ 3927 / 1000) : |sinP (4272283 / 16777216 * v) - sinQ v| ≤ 1 / 8000 := by
  obtain ⟨t, ht, hv⟩ : ∃ t : ℝ, 0 ≤ t ∧ v = 27489 / 8000 + t * (3927 / 8000) := ⟨(v - (27489 / 8000)) * (8000 / 3927), mul_nonneg (by linarith) (by norm_num), by ring⟩
  obtain ⟨s, hs, hst⟩ : ∃ s : ℝ, 0 ≤ s ∧ s = 1 - t := ⟨1 - t, by linarith, rfl⟩
  have a : 1 / 8000 + (sinP (4272283 / 16777216 * v) - sinQ v) = 85420664846165222580436359595843595464335582356787429165385031478790012197286278900149713189719798489965100731445701466414089125144963 / 532728546142896642342620218119507902111069973789401712226607338524508160000000000000000000000000000000000000000000000000000000000000000000 * (s ^ 21) +
        21830503206364888824643921834809506651963893727333748951089180719908904577771308809293193591144765003182366614515024855037571296316337 / 7009586133459166346613423922625103975145657549860548845086938664796160000000000000000000000000000000000000000000000000000000000000000000 * (t * s ^ 20) +
        1513265501717988948353624744868842877458581192184699926939353133362412629022502365561153482077556286504657859701949380285975982296960503 / 53272854614289664234262021811950790211106997378940171222660733852450816000000000000000000000000000000000000000000000000000000000000000000 * (t ^ 2 * s ^ 19) +
        226297655987914062357320832237250543723553489553701065247332297828895224597940384477057048705004803309068526860563572407458302908277447 / 1401917226691833269322684784525020795029131509972109769017387732959232000000000000000000000000000000000000000000000000000000000000000000 * (t ^ 3 * s ^ 18) +
        3583894850973519975751014594657073716646056384938043111357089079844352403319783865335353264521185660217208998635912559565141932026736499 / 5607668906767333077290739138100083180116526039888439076069550931836928000000000000000000000000000000000000000000000000000000000000000000 * (t ^ 4 * s ^ 17) +
        1635590182647330521546241639705678134445964198588936379557913915732162612014928320824878862602809996583432225582807971842777706979117361 / 876198266682395793326677990328137996893207193732568605635867333099520000000000000000000000000000000000000000000000000000000000000000000 * (t ^ 5 * s ^ 16) +
        2237875297528018754486465967208882262241062636033326661718029210701361037555284293418769094055577085315587275605175813590945380733280259 / 539198933343012795893340301740392613472742888450811449622072204984320000000000000000000000000000000000000000000000000000000000000000000 * (t ^ 6 * s ^ 15) +
        5001514627469287538927497676178345576817913482076549275262130131146869138640583010985768304151483027012987631965268850664544635737733771 / 700958613345916634661342392262510397514565754986054884508693866479616000000000000000000000000000000000000000000000000000000000000000000 * (t ^ 7 * s ^ 14) +
        53351699788436300220173787472697368617411243190890489353940603438211017314006892435081963368624645950873550211699425618536242772175912211 / 5607668906767333077290739138100083180116526039888439076069550931836928000000000000000000000000000000000000000000000000000000000000000000 * (t ^ 8 * s ^ 13) +
        1049701360155813364141586245830399470405617069041779689389440403072624255752044875857531368488447865777007581237992021725470840446808969 / 107839786668602559178668060348078522694548577690162289924414440996864000000000000000000000000000000000000000000000000000000000000000000 * (t ^ 9 * s ^ 12) +
        7980621226383761780144339924832511902293907780804962462249778572140155798801646302286169496322088490772334131700268655519703480960047557 / 1078397866686025591786680603480785226945485776901622899244144409968640000000000000000000000000000000000000000000000000000000000000000000 * (t ^ 10 * s ^ 11) +
        2085678246360993893261477616666179198376017083150667721878210073085028782922237079568981758372652975297584395893008116539987479848207979 / 539198933343012795893340301740392613472742888450811449622072204984320000000000000000000000000000000000000000000000000000000000000000000 * (t ^ 11 * s ^ 10) +
        479635854561593355970448314236888761536503880367334586277819599622902551895102551223713480160125937564104864002956343198409858961858609 / 431359146674410236714672241392314090778194310760649159697657763987456000000000000000000000000000000000000000000000000000000000000000000 * (t ^ 12 * s ^ 9) +
        34693914053579887932770717543781781256533723511695133569608548676988575955066630857446468448645192162437182178593732305000017481059283 / 700958613345916634661342392262510397514565754986054884508693866479616000000000000000000000000000000000000000000000000000000000000000000 * (t ^ 13 * s ^ 8) +
        3242097085919254872435628498698298653906534987818275745681730972802283581239321788876497722691367805662681570293458531040517983675317 / 21904956667059894833166949758203449922330179843314215140896683327488000000000000000000000000000000000000000000000000000000000000000000 * (t ^ 14 * s ^ 7) +
        5883877876506693387046178281731795717939358824791260987469854709670995853081126925444314679755627666880236762652030919479799377245939 / 13690597916912434270729343598877156201456362402071384463060427079680000000000000000000000000000000000000000000000000000000000000000000 * (t ^ 15 * s ^ 6) +
        1488190418230385446807963716460660400734553238302006555788093023754318356454060050566530485056489548474322531664481973582040006376239 / 3422649479228108567682335899719289050364090600517846115765106769920000000000000000000000000000000000000000000000000000000000000000000 * (t ^ 16 * s ^ 5) +
        21992224257382737076643667073324736054779458164691438495760259130775699559525232308390197511822489466809633533403132836126698738981 / 85566236980702714192058397492982226259102265012946152894127669248000000000000000000000000000000000000000000000000000000000000000000 * (t ^ 17 * s ^ 4) +
        527321380006139831710492386260873285861418535722665428141190593189000614210336473812789032852426460228033844839736094488591248337 / 5347889811293919637003649843311389141193891563309134555882979328000000000000000000000000000000000000000000000000000000000000000000 * (t ^ 18 * s ^ 3) +
        23925573495343949661687099841265059849518782014269448943395113891871644100823472077719471418288922429118598824383251281432011621 / 977018330909466087529512952143426862333499420219938043863236608000000000000000000000000000000000000000000000000000000000000000000 * (t ^ 19 * s ^ 2) +
        6043903700526898834203121811931868304235655007614173364582632608584646655614363972805023031470783810333226219033373190507047737 / 1671215566029349886563640576034809106623091113534104548713431040000000000000000000000000000000000000000000000000000000000000000000 * (t ^ 20 * s) +
        964485455214827019225067018660234828759549512818957262247218495856187702908473041383269174237319150730094143928393410419390949 / 3969136969319705980588646368082671628229841394643498303194398720000000000000000000000000000000000000000000000000000000000000000000 * (t ^ 21) := by
    rw [sinP, sinQ, hv, hst]; ring
  have b : 1 / 8000 - (sinP (4272283 / 16777216 * v) - sinQ v) = 47761471689558938005218694934033380063431911090562998891266803152337027802713721099850286810280201510034899268554298533585910874855037 / 532728546142896642342620218119507902111069973789401712226607338524508160000000000000000000000000000000000000000000000000000000000000000000 * (s ^ 21) +
        14969823994295734495076553758972289217550808409434132485617247270270935422228691190706806408855234996817633385484975144962428703683663 / 7009586133459166346613423922625103975145657549860548845086938664796160000000000000000000000000000000000000000000000000000000000000000000 * (t * s ^ 20) +
        1283559365532218423945131400258573608624536170209659062250335393891255210977497634438846517922443713495342140298050619714024017703039497 / 53272854614289664234262021811950790211106997378940171222660733852450816000000000000000000000000000000000000000000000000000000000000000000 * (t ^ 2 * s ^ 19) +
        239839821887120499692471858617318870623632737512025432950949123380049415402059615522942951294995196690931473139436427592541697091722553 / 1401917226691833269322684784525020795029131509972109769017387732959232000000000000000000000000000000000000000000000000000000000000000000 * (t ^ 3 * s ^ 18) +
        4806579750777102141145253840725175741603295702245033856211976501916651116680216134664646735478814339782791001364087440434858067973263501 / 5607668906767333077290739138100083180116526039888439076069550931836928000000000000000000000000000000000000000000000000000000000000000000 * (t ^ 4 * s ^ 17) +
        2821849449532687478054900966591141890249004097727073259463152174578370507985071679175121137397190003416567774417192028157222293020882639 / 876198266682395793326677990328137996893207193732568605635867333099520000000000000000000000000000000000000000000000000000000000000000000 * (t ^ 5 * s ^ 16) +
        5076897432203292834602588566201283932130167388690381463855002322115924082444715706581230905944422914684412724394824186409054619266719741 / 539198933343012795893340301740392613472742888450811449622072204984320000000000000000000000000000000000000000000000000000000000000000000 * (t ^ 6 * s ^ 15) +
        15375352262496509030677725666892831678930513015368066217405600567415567981359416989014231695848516972987012368034731149335455364262266229 / 700958613345916634661342392262510397514565754986054884508693866479616000000000000000000000000000000000000000000000000000000000000000000 * (t ^ 7 * s ^ 14) +
        231924436671084851754299339330299112963066727773334127543407626341663102365993107564918036631375354049126449788300574381463757227824087789 / 5607668906767333077290739138100083180116526039888439076069550931836928000000000000000000000000000000000000000000000000000000000000000000 * (t ^ 8 * s ^ 13) +
        6874635763719774190704889498697280573496548791075570779981343757479434624247955124142468631511552134222992418762007978274529159553191031 / 107839786668602559178668060348078522694548577690162289924414440996864000000000000000000000000000000000000000000000000000000000000000000 * (t ^ 9 * s ^ 12) +
        87111424260123288878013369009499648624532082540603243170199631354484550761198353697713830503677911509227665868299731344480296519039952443 / 1078397866686025591786680603480785226945485776901622899244144409968640000000000000000000000000000000000000000000000000000000000000000000 * (t ^ 10 * s ^ 11) +
        45460344496892531435817376850499901065036978077553435094346494890227324497077762920431018241627347024702415604106991883460012520151792021 / 539198933343012795893340301740392613472742888450811449622072204984320000000000000000000000000000000000000000000000000000000000000000000 * (t ^ 11 * s ^ 10) +
        31217712640940756863415454663873831414072159560102067291205317042585332968104897448776286519839874062435895135997043656801590141038141391 / 431359146674410236714672241392314090778194310760649159697657763987456000000000000000000000000000000000000000000000000000000000000000000 * (t ^ 12 * s ^ 9) +
        35624823143386564108876370132830778416303212647016381978598920173807276384044933369142553531551354807837562817821406267694999982518940717 / 700958613345916634661342392262510397514565754986054884508693866479616000000000000000000000000000000000000000000000000000000000000000000 * (t ^ 13 * s ^ 8) +
        633534993225511887927727600972275990588231793057325958400184853357273876418760678211123502277308632194337318429706541468959482016324683 / 21904956667059894833166949758203449922330179843314215140896683327488000000000000000000000000000000000000000000000000000000000000000000 * (t ^ 14 * s ^ 7) +
        179842773464327389929668096980635705311017653521709140638407899053267884146918873074555685320244372333119763237347969080520200622754061 / 13690597916912434270729343598877156201456362402071384463060427079680000000000000000000000000000000000000000000000000000000000000000000 * (t ^ 15 * s ^ 6) +
        15923683144972809864133999589386292820730166669182406096637946391521201643545939949433469514943510451525677468335518026417959993623761 / 3422649479228108567682335899719289050364090600517846115765106769920000000000000000000000000000000000000000000000000000000000000000000 * (t ^ 16 * s ^ 5) +
        106036257824993699033223710175549919985402305860929242772078265981544300440474767691609802488177510533190366466596867163873301261019 / 85566236980702714192058397492982226259102265012946152894127669248000000000000000000000000000000000000000000000000000000000000000000 * (t ^ 17 * s ^ 4) +
        1250851982249088447593221186640163603585550409077621811689900033370999385789663526187210967147573539771966155160263905511408751663 / 5347889811293919637003649843311389141193891563309134555882979328000000000000000000000000000000000000000000000000000000000000000000 * (t ^ 18 * s ^ 3) +
        27367888877403019933612330146264850422989937547277298359424808028128355899176527922280528581711077570881401175616748718567988379 / 977018330909466087529512952143426862333499420219938043863236608000000000000000000000000000000000000000000000000000000000000000000 * (t ^ 19 * s ^ 2) +
        2729978021127188070255991212250879505535573338439875516162880351415353344385636027194976968529216189666773780966626809492952263 / 1671215566029349886563640576034809106623091113534104548713431040000000000000000000000000000000000000000000000000000000000000000000 * (t ^ 20 * s) +
        27798787115099475922094573360433078297910835841917313551381184143812297091526958616730825762680849269905856071606589580609051 / 3969136969319705980588646368082671628229841394643498303194398720000000000000000000000000000000000000000000000000000000000000000000 * (t ^ 21) := by
    rw [sinP, sinQ, hv, hst]; ring
  have a0 : 0 ≤ 1 / 8000 + (sinP (4272283 / 16777216 * v) - sinQ v) := by rw [a]; positivity
  have b0 : 0 ≤ 1 / 8000 - (sinP (4272283 / 16777216 * v) - sinQ v) := by rw [b]; positivity
  rw [abs_le]
  constructor <;> linarith

/-- the polynomials are close to each other -/
theorem sinPQ (v : ℝ) (h0 : 0 ≤ v) (h1 : v ≤ 3927 / 1000) : |sinP (4272283 / 16777216 * v) - sinQ v| ≤ 1 / 8000 := by
  rcases le_total v (3927 / 8000) with g0 | g0
  · exact sinPQ_0 v h0 g0
  rcases le_total v (3927 / 4000) with g1 | g1
  · exact sinPQ_1 v g0 g1
  rcases le_total v (11781 / 8000) with g2 | g2
  · exact sinPQ_2 v g1 g2
  rcases le_total v (3927 / 2000) with g3 | g3
  · exact sinPQ_3 v g2 g3
  rcases le_total v (3927 / 1600) with g4 | g4
  · exact sinPQ_4 v g3 g4
  rcases le_total v (11781 / 4000) with g5 | g5
  · exact sinPQ_5 v g4 g5
  rcases le_total v (27489 / 8000) with g6 | g6
  · exact sinPQ_6 v g5 g6
  exact sinPQ_7 v g6 h1

theorem hasDerivAt_sinQ (v : ℝ) : HasDerivAt sinQ (sinQ' v) v := by
  unfold sinQ sinQ'
  have h (c : ℝ) (n : ℕ) : HasDerivAt (fun v : ℝ => c * v ^ n) (c * (n * v ^ (n - 1))) v := (hasDerivAt_pow n v).const_mul c
  have h1 (c : ℝ) : HasDerivAt (fun v : ℝ => c * v) (c * 1) v := (hasDerivAt_id v).const_mul c
  refine HasDerivAt.congr_deriv ((((((((((((h1 _).fun_add (h _ 3)).fun_add (h _ 5)).fun_add (h _ 7)).fun_add (h _ 9)).fun_add (h _ 11)).fun_add (h _ 13)).fun_add (h _ 15)).fun_add (h _ 17)).fun_add (h _ 19)).fun_add (h _ 21))) ?_
  norm_num
  ring

theorem hasDerivAt_sinQ' (v : ℝ) : HasDerivAt sinQ' (sinQ'' v) v := by
  unfold sinQ' sinQ''
  have h (c : ℝ) (n : ℕ) : HasDerivAt (fun v : ℝ => c * v ^ n) (c * (n * v ^ (n - 1))) v := (hasDerivAt_pow n v).const_mul c
  have h1 (c : ℝ) : HasDerivAt (fun v : ℝ => c * v) (c * 1) v := (hasDerivAt_id v).const_mul c
  refine HasDerivAt.congr_deriv ((((((((((((hasDerivAt_const v _).fun_add (h _ 2)).fun_add (h _ 4)).fun_add (h _ 6)).fun_add (h _ 8)).fun_add (h _ 10)).fun_add (h _ 12)).fun_add (h _ 14)).fun_add (h _ 16)).fun_add (h _ 18)).fun_add (h _ 20))) ?_
  norm_num
  ring

theorem sinQ_ode (v : ℝ) : sinQ'' v + sinQ v = v ^ 21 / 51090942171709440000 := by
  rw [sinQ'', sinQ]; ring

/-- the Taylor polynomial is close to the sine: rotating it by the angle leaves almost a constant -/
theorem sinQ_close (v : ℝ) (h0 : 0 ≤ v) (h1 : v ≤ 3927 / 1000) : |sinQ v - Real.sin v| ≤ 1 / 1000000 := by
  have hb : ∀ z ∈ Set.Icc (0 : ℝ) (3927 / 1000), |sinQ'' z + sinQ z| ≤ 1 / 10000000 := by
    intro z hz
    rw [sinQ_ode, abs_of_nonneg (div_nonneg (pow_nonneg hz.1 _) (by norm_num))]
    have : z ^ 21 ≤ (3927 / 1000) ^ 21 := pow_le_pow_left₀ hz.1 hz.2 _
    rw [div_le_iff₀ (by norm_num)]
    exact this.trans (by norm_num)
  have hA := Convex.norm_image_sub_le_of_norm_hasDerivWithin_le (f := fun z => sinQ z * Real.cos z - sinQ' z * Real.sin z)
    (f' := fun z => -(sinQ'' z + sinQ z) * Real.sin z) (C := 1 / 10000000) (s := Set.Icc 0 (3927 / 1000)) (x := 0) (y := v)
    (fun z _ => (HasDerivAt.congr_deriv (((hasDerivAt_sinQ z).mul (Real.hasDerivAt_cos z)).sub ((hasDerivAt_sinQ' z).mul (Real.hasDerivAt_sin z)))
      (by ring)).hasDerivWithinAt)
    (fun z hz => by
      rw [Real.norm_eq_abs, abs_mul, abs_neg]
      exact (mul_le_mul (hb z hz) (Real.abs_sin_le_one z) (abs_nonneg _) (by norm_num)).trans (by norm_num))
    (convex_Icc _ _) ⟨le_rfl, by norm_num⟩ ⟨h0, h1⟩
  have hB := Convex.norm_image_sub_le_of_norm_hasDerivWithin_le (f := fun z => sinQ z * Real.sin z + sinQ' z * Real.cos z)
    (f' := fun z => (sinQ'' z + sinQ z) * Real.cos z) (C := 1 / 10000000) (s := Set.Icc 0 (3927 / 1000)) (x := 0) (y := v)
    (fun z _ => (HasDerivAt.congr_deriv (((hasDerivAt_sinQ z).mul (Real.hasDerivAt_sin z)).add ((hasDerivAt_sinQ' z).mul (Real.hasDerivAt_cos z)))
      (by ring)).hasDerivWithinAt)
    (fun z hz => by
      rw [Real.norm_eq_abs, abs_mul]
      exact (mul_le_mul (hb z hz) (Real.abs_cos_le_one z) (abs_nonneg _) (by norm_num)).trans (by norm_num))
    (convex_Icc _ _) ⟨le_rfl, by norm_num⟩ ⟨h0, h1⟩
  have e0 : sinQ 0 = 0 := by simp [sinQ]
  have e1 : sinQ' 0 = 1 := by simp [sinQ']
  simp only [e0, e1, Real.sin_zero, Real.cos_zero, Real.norm_eq_abs, mul_zero, zero_mul, sub_zero, zero_add, mul_one, abs_of_nonneg h0] at hA hB
  set S := Real.sin v
  set K := Real.cos v
  have hSK : S ^ 2 + K ^ 2 = 1 := Real.sin_sq_add_cos_sq v
  have e : sinQ v - S = (sinQ v * K - sinQ' v * S) * K + (sinQ v * S + sinQ' v * K - 1) * S := by
    have : sinQ v * (S ^ 2 + K ^ 2) = sinQ v := by rw [hSK, mul_one]
    linear_combination -this
  rw [e]
  refine (abs_add_le _ _).trans ?_
  rw [abs_mul, abs_mul]
  have hS : |S| ≤ 1 := Real.abs_sin_le_one v
  have hK : |K| ≤ 1 := Real.abs_cos_le_one v
  have m1 := mul_le_mul hA hK (abs_nonneg _) (by positivity)
  have m2 := mul_le_mul hB hS (abs_nonneg _) (by positivity)
  linarith

/-- the polynomial is close to the sine of the angle -/
theorem sinP_close (y : ℝ) (h : |y| ≤ 1) : |sinP y - Real.sin (16777216 / 4272283 * y)| ≤ 126 / 1000000 := by
  have key : ∀ z : ℝ, 0 ≤ z → z ≤ 1 → |sinP z - Real.sin (16777216 / 4272283 * z)| ≤ 126 / 1000000 := by
    intro z h0 h1
    have a := sinPQ (16777216 / 4272283 * z) (by positivity) (by linarith)
    have b := sinQ_close (16777216 / 4272283 * z) (by positivity) (by linarith)
    rw [← mul_assoc, show (4272283 : ℝ) / 16777216 * (16777216 / 4272283) = 1 by norm_num, one_mul] at a
    have e := abs_add_le (sinP z - sinQ (16777216 / 4272283 * z)) (sinQ (16777216 / 4272283 * z) - Real.sin (16777216 / 4272283 * z))
    rw [sub_add_sub_cancel] at e
    linarith
  rcases abs_le.1 h with ⟨h0, h1⟩
  rcases le_total 0 y with g | g
  · exact key y g h1
  · have := key (-y) (by linarith) (by linarith)
    rw [mul_neg, Real.sin_neg, show sinP (-y) = -sinP y by rw [sinP, sinP]; ring, sub_neg_eq_add, ← abs_neg] at this
    rw [show sinP y - Real.sin (16777216 / 4272283 * y) = -(-sinP y + Real.sin (16777216 / 4272283 * y)) by ring]
    rw [abs_neg] at this ⊢
    exact this

end Spu.Props
