import Mathlib.Tactic.Linarith
import Mathlib.Tactic.Ring
import Mathlib.Tactic.Positivity
import Mathlib.Analysis.SpecialFunctions.Trigonometric.InverseDeriv
import Mathlib.Analysis.Calculus.MeanValue
import Mathlib.Analysis.Real.Pi.Bounds

set_option autoImplicit false

/-! # C93: the polynomials for the arc cosine -/

namespace Spu.Props

/-- the polynomials of `acos_minimax` for at most 20 fraction bits and for more, with the exact coefficients -/
noncomputable def acosP (v : ℝ) : ℝ := 3294057 / 2097152 + (-3558689 / 16777216) * v + (9967143 / 134217728) * v ^ 2 + (-628451 / 33554432) * v ^ 3
noncomputable def acosPL (v : ℝ) : ℝ := 6588397 / 4194304 + (-7200741 / 33554432) * v + (5971279 / 67108864) * v ^ 2 + (-6734281 / 134217728) * v ^ 3 + (2073119 / 67108864) * v ^ 4 + (-4587059 / 268435456) * v ^ 5 + (14323909 / 2147483648) * v ^ 6 + (-2711179 / 2147483648) * v ^ 7

/-- a polynomial close to `2/√(2 - v)`, and one whose value at `s²`, times `s`, has the former at `s²` as derivative -/
noncomputable def acosW (v : ℝ) : ℝ := 12148001919 / 8589934592 + (6074033249 / 17179869184) * v + (1138349573 / 8589934592) * v ^ 2 + (962210179 / 17179869184) * v ^ 3 + (83201011 / 4294967296) * v ^ 4 + (478429575 / 17179869184) * v ^ 5 + (-526730671 / 17179869184) * v ^ 6 + (803566355 / 17179869184) * v ^ 7 + (-513298625 / 17179869184) * v ^ 8 + (176020965 / 17179869184) * v ^ 9
noncomputable def acosV (v : ℝ) : ℝ := 12148001919 / 8589934592 + (6074033249 / 51539607552) * v + (1138349573 / 42949672960) * v ^ 2 + (137458597 / 17179869184) * v ^ 3 + (83201011 / 38654705664) * v ^ 4 + (478429575 / 188978561024) * v ^ 5 + (-526730671 / 223338299392) * v ^ 6 + (160713271 / 51539607552) * v ^ 7 + (-513298625 / 292057776128) * v ^ 8 + (176020965 / 326417514496) * v ^ 9

theorem acosW_sq_0 (v : ℝ) (h0 : 0 ≤ v) (h1 : v ≤ 1 / 4) : |acosW v ^ 2 * (2 - v) - 4| ≤ 3 / 20000000 := by
  obtain ⟨t, ht, hv⟩ : ∃ t : ℝ, 0 ≤ t ∧ v = 0 + t * (1 / 4) := ⟨(v - (0)) * (4), mul_nonneg (by linarith) (by norm_num), by ring⟩
  obtain ⟨s, hs, hst⟩ : ∃ s : ℝ, 0 ≤ s ∧ s = 1 - t := ⟨1 - t, by linarith, rfl⟩
  have a : 3 / 20000000 + (acosW v ^ 2 * (2 - v) - 4) = 278779257167645741 / 2882303761517117440000000 * (s ^ 19) +
        103663963958786918257 / 23058430092136939520000000 * (t * s ^ 18) +
        7855334876539088348879 / 184467440737095516160000000 * (t ^ 2 * s ^ 17) +
        293368497374174627362723 / 1475739525896764129280000000 * (t ^ 3 * s ^ 16) +
        845194575086021895622767 / 1475739525896764129280000000 * (t ^ 4 * s ^ 15) +
        13702741694403698242055783 / 11805916207174113034240000000 * (t ^ 5 * s ^ 14) +
        91065800360434457345671683 / 47223664828696452136960000000 * (t ^ 6 * s ^ 13) +
        1199740843535132891508271701 / 377789318629571617095680000000 * (t ^ 7 * s ^ 12) +
        4139222040905275745457315103 / 755578637259143234191360000000 * (t ^ 8 * s ^ 11) +
        6568020974343319286517152487 / 755578637259143234191360000000 * (t ^ 9 * s ^ 10) +
        136317496566191343531388736667 / 12089258196146291747061760000000 * (t ^ 10 * s ^ 9) +
        1104613007901692238246865005059 / 96714065569170333976494080000000 * (t ^ 11 * s ^ 8) +
        1726203718820471107330726907787 / 193428131138340667952988160000000 * (t ^ 12 * s ^ 7) +
        8281529752047234167154674005419 / 1547425049106725343623905280000000 * (t ^ 13 * s ^ 6) +
        7558849123856900478825480631877 / 3094850098213450687247810560000000 * (t ^ 14 * s ^ 5) +
        20647346048246070124370727961047 / 24758800785707605497982484480000000 * (t ^ 15 * s ^ 4) +
        10227742721335916074188924878961 / 49517601571415210995964968960000000 * (t ^ 16 * s ^ 3) +
        13904200018296107678280547021217 / 396140812571321687967719751680000000 * (t ^ 17 * s ^ 2) +
        1453003667913087353938042620413 / 396140812571321687967719751680000000 * (t ^ 18 * s) +
        1129761501739546675200395450907 / 6338253001141147007483516026880000000 * (t ^ 19) := by
    rw [acosW, hv, hst]; ring
  have b : 3 / 20000000 - (acosW v ^ 2 * (2 - v) - 4) = 585911871287489491 / 2882303761517117440000000 * (s ^ 19) +
        27769087566393637007 / 23058430092136939520000000 * (t * s ^ 18) +
        1607844833273911630129 / 184467440737095516160000000 * (t ^ 2 * s ^ 17) +
        135628982804014705018973 / 1475739525896764129280000000 * (t ^ 3 * s ^ 16) +
        870795345626735433904017 / 1475739525896764129280000000 * (t ^ 4 * s ^ 15) +
        27481016402702477666587033 / 11805916207174113034240000000 * (t ^ 5 * s ^ 14) +
        293315941879223184468327933 / 47223664828696452136960000000 * (t ^ 6 * s ^ 13) +
        4511073612596923501156865451 / 377789318629571617095680000000 * (t ^ 7 * s ^ 12) +
        12993221327490893432538096353 / 755578637259143234191360000000 * (t ^ 8 * s ^ 11) +
        14371632031474220819921683737 / 755578637259143234191360000000 * (t ^ 9 * s ^ 10) +
        198716951526889298171632642917 / 12089258196146291747061760000000 * (t ^ 10 * s ^ 9) +
        1088339743253017416536547661309 / 96714065569170333976494080000000 * (t ^ 11 * s ^ 8) +
        1197733282719141765713823314037 / 193428131138340667952988160000000 * (t ^ 12 * s ^ 7) +
        4313891177661867439806465411669 / 1547425049106725343623905280000000 * (t ^ 13 * s ^ 6) +
        3237225958750900898569781725627 / 3094850098213450687247810560000000 * (t ^ 14 * s ^ 5) +
        8142187505374733548683304992297 / 24758800785707605497982484480000000 * (t ^ 15 * s ^ 4) +
        4167024055474485762338091597711 / 49517601571415210995964968960000000 * (t ^ 16 * s ^ 3) +
        6417823666612694914463476239967 / 396140812571321687967719751680000000 * (t ^ 17 * s ^ 2) +
        804998963743446267477959964163 / 396140812571321687967719751680000000 * (t ^ 18 * s) +
        771714398602797427044659357157 / 6338253001141147007483516026880000000 * (t ^ 19) := by
    rw [acosW, hv, hst]; ring
  have a0 : 0 ≤ 3 / 20000000 + (acosW v ^ 2 * (2 - v) - 4) := by rw [a]; positivity
  have b0 : 0 ≤ 3 / 20000000 - (acosW v ^ 2 * (2 - v) - 4) := by rw [b]; positivity
  rw [abs_le]
  constructor <;> linarith

theorem acosW_sq_1 (v : ℝ) (h0 : 1 / 4 ≤ v) (h1 : v ≤ 1 / 2) : |acosW v ^ 2 * (2 - v) - 4| ≤ 3 / 20000000 := by
  obtain ⟨t, ht, hv⟩ : ∃ t : ℝ, 0 ≤ t ∧ v = 1 / 4 + t * (1 / 4) := ⟨(v - (1 / 4)) * (4), mul_nonneg (by linarith) (by norm_num), by ring⟩
  obtain ⟨s, hs, hst⟩ : ∃ s : ℝ, 0 ≤ s ∧ s = 1 - t := ⟨1 - t, by linarith, rfl⟩
  have a : 3 / 20000000 + (acosW v ^ 2 * (2 - v) - 4) = 1129761501739546675200395450907 / 6338253001141147007483516026880000000 * (s ^ 19) +
        9841439189746687997303172603929 / 3169126500570573503741758013440000000 * (t * s ^ 18) +
        39573488691162333205311672850493 / 1584563250285286751870879006720000000 * (t ^ 2 * s ^ 17) +
        98104123362762471985073423922751 / 792281625142643375935439503360000000 * (t ^ 3 * s ^ 16) +
        42421961667218462637843749891063 / 99035203142830421991929937920000000 * (t ^ 4 * s ^ 15) +
        55272921041934884127852758938157 / 49517601571415210995964968960000000 * (t ^ 5 * s ^ 14) +
        57561373245123960579767047914829 / 24758800785707605497982484480000000 * (t ^ 6 * s ^ 13) +
        50274790920322568676217692957743 / 12379400392853802748991242240000000 * (t ^ 7 * s ^ 12) +
        75963266252824999566199418225677 / 12379400392853802748991242240000000 * (t ^ 8 * s ^ 11) +
        49948372369684940686146447782879 / 6189700196426901374495621120000000 * (t ^ 9 * s ^ 10) +
        28153813984759775759149354008627 / 3094850098213450687247810560000000 * (t ^ 10 * s ^ 9) +
        13274056746872790800149320471569 / 1547425049106725343623905280000000 * (t ^ 11 * s ^ 8) +
        2554485264026049442291728893699 / 386856262276681335905976320000000 * (t ^ 12 * s ^ 7) +
        785148462621135026443642854193 / 193428131138340667952988160000000 * (t ^ 13 * s ^ 6) +
        188522648005515626224745739961 / 96714065569170333976494080000000 * (t ^ 14 * s ^ 5) +
        34436698720938413995666750931 / 48357032784585166988247040000000 * (t ^ 15 * s ^ 4) +
        18435991361564242385649586403 / 96714065569170333976494080000000 * (t ^ 16 * s ^ 3) +
        1701647723783629786110177201 / 48357032784585166988247040000000 * (t ^ 17 * s ^ 2) +
        96687459600928742367705157 / 24178516392292583494123520000000 * (t ^ 18 * s) +
        2547357083828768228543639 / 12089258196146291747061760000000 * (t ^ 19) := by
    rw [acosW, hv, hst]; ring
  have b : 3 / 20000000 - (acosW v ^ 2 * (2 - v) - 4) = 771714398602797427044659357157 / 6338253001141147007483516026880000000 * (s ^ 19) +
        8222581863505580974024848072679 / 3169126500570573503741758013440000000 * (t * s ^ 18) +
        41714606048472877165664420194243 / 1584563250285286751870879006720000000 * (t ^ 2 * s ^ 17) +
        132212145066203957399358839704001 / 792281625142643375935439503360000000 * (t ^ 3 * s ^ 16) +
        72736172547264752054372381922313 / 99035203142830421991929937920000000 * (t ^ 4 * s ^ 15) +
        117464280279789937910471438781907 / 49517601571415210995964968960000000 * (t ^ 5 * s ^ 14) +
        143965361630221665131611182758579 / 24758800785707605497982484480000000 * (t ^ 6 * s ^ 13) +
        136857177178212655198633521238993 / 12379400392853802748991242240000000 * (t ^ 7 * s ^ 12) +
        204734685894977836246077403069427 / 12379400392853802748991242240000000 * (t ^ 8 * s ^ 11) +
        121589265053972347865800498564129 / 6189700196426901374495621120000000 * (t ^ 9 * s ^ 10) +
        57615004727068868516824119164877 / 3094850098213450687247810560000000 * (t ^ 10 * s ^ 9) +
        21813187271602563676385282190319 / 1547425049106725343623905280000000 * (t ^ 11 * s ^ 8) +
        3293388739053176303797371549949 / 386856262276681335905976320000000 * (t ^ 12 * s ^ 7) +
        789279153592502674426499572943 / 193428131138340667952988160000000 * (t ^ 13 * s ^ 6) +
        148854698325978166818856208711 / 96714065569170333976494080000000 * (t ^ 14 * s ^ 5) +
        21792859000977218178266907181 / 48357032784585166988247040000000 * (t ^ 15 * s ^ 4) +
        9678787499393573701317242653 / 96714065569170333976494080000000 * (t ^ 16 * s ^ 3) +
        779068058065589280386895951 / 48357032784585166988247040000000 * (t ^ 17 * s ^ 2) +
        41130083835138983548798907 / 24178516392292583494123520000000 * (t ^ 18 * s) +
        1079420375015119295574889 / 12089258196146291747061760000000 * (t ^ 19) := by
    rw [acosW, hv, hst]; ring
  have a0 : 0 ≤ 3 / 20000000 + (acosW v ^ 2 * (2 - v) - 4) := by rw [a]; positivity
  have b0 : 0 ≤ 3 / 20000000 - (acosW v ^ 2 * (2 - v) - 4) := by rw [b]; positivity
  rw [abs_le]
  constructor <;> linarith

theorem acosW_sq_2 (v : ℝ) (h0 : 1 / 2 ≤ v) (h1 : v ≤ 3 / 4) : |acosW v ^ 2 * (2 - v) - 4| ≤ 3 / 20000000 := by
  obtain ⟨t, ht, hv⟩ : ∃ t : ℝ, 0 ≤ t ∧ v = 1 / 2 + t * (1 / 4) := ⟨(v - (1 / 2)) * (4), mul_nonneg (by linarith) (by norm_num), by ring⟩
  obtain ⟨s, hs, hst⟩ : ∃ s : ℝ, 0 ≤ s ∧ s = 1 - t := ⟨1 - t, by linarith, rfl⟩
  have a : 3 / 20000000 + (acosW v ^ 2 * (2 - v) - 4) = 2547357083828768228543639 / 12089258196146291747061760000000 * (s ^ 19) +
        96911678770057643001611407 / 24178516392292583494123520000000 * (t * s ^ 18) +
        1709719613872270208930802201 / 48357032784585166988247040000000 * (t ^ 2 * s ^ 17) +
        18562049663373912215062555153 / 96714065569170333976494080000000 * (t ^ 3 * s ^ 16) +
        34713313767379040961900500931 / 48357032784585166988247040000000 * (t ^ 4 * s ^ 15) +
        189949619934754778136199021211 / 96714065569170333976494080000000 * (t ^ 5 * s ^ 14) +
        788635140246512702886804729193 / 193428131138340667952988160000000 * (t ^ 6 * s ^ 13) +
        2547826523371642415840023112449 / 386856262276681335905976320000000 * (t ^ 7 * s ^ 12) +
        13076800719532499946163622971569 / 1547425049106725343623905280000000 * (t ^ 8 * s ^ 11) +
        27227405734821187963244586352377 / 3094850098213450687247810560000000 * (t ^ 9 * s ^ 10) +
        47195478730181300496623314657879 / 6189700196426901374495621120000000 * (t ^ 10 * s ^ 9) +
        70178605840300446723256750256927 / 12379400392853802748991242240000000 * (t ^ 11 * s ^ 8) +
        45839965133617654665428019207743 / 12379400392853802748991242240000000 * (t ^ 12 * s ^ 7) +
        52596945106143422346691579321079 / 24758800785707605497982484480000000 * (t ^ 13 * s ^ 6) +
        51308805301773872400942545813157 / 49517601571415210995964968960000000 * (t ^ 14 * s ^ 5) +
        40290333186296522793111549734813 / 99035203142830421991929937920000000 * (t ^ 15 * s ^ 4) +
        95435079309625609325943298922751 / 792281625142643375935439503360000000 * (t ^ 16 * s ^ 3) +
        39340774258206528764416275506743 / 1584563250285286751870879006720000000 * (t ^ 17 * s ^ 2) +
        9961524832313969492828823228929 / 3169126500570573503741758013440000000 * (t ^ 18 * s) +
        1159677685554555932206542169657 / 6338253001141147007483516026880000000 * (t ^ 19) := by
    rw [acosW, hv, hst]; ring
  have b : 3 / 20000000 - (acosW v ^ 2 * (2 - v) - 4) = 1079420375015119295574889 / 12089258196146291747061760000000 * (s ^ 19) +
        40905864666010082914892657 / 24178516392292583494123520000000 * (t * s ^ 18) +
        770996167976948857566270951 / 48357032784585166988247040000000 * (t ^ 2 * s ^ 17) +
        9552729197583903871904273903 / 96714065569170333976494080000000 * (t ^ 3 * s ^ 16) +
        21516243954536591212033157181 / 48357032784585166988247040000000 * (t ^ 4 * s ^ 15) +
        147427726396739014907402927461 / 96714065569170333976494080000000 * (t ^ 5 * s ^ 14) +
        785792475967124997983337697943 / 193428131138340667952988160000000 * (t ^ 6 * s ^ 13) +
        3300047479707583330249077331199 / 386856262276681335905976320000000 * (t ^ 7 * s ^ 12) +
        22010443298942854530370979690319 / 1547425049106725343623905280000000 * (t ^ 8 * s ^ 11) +
        58541412977007456312728886821127 / 3094850098213450687247810560000000 * (t ^ 9 * s ^ 10) +
        124342158693475988055323631689129 / 6189700196426901374495621120000000 * (t ^ 10 * s ^ 9) +
        210519346307502389089020071038177 / 12379400392853802748991242240000000 * (t ^ 11 * s ^ 8) +
        141292002964917569209423194988993 / 12379400392853802748991242240000000 * (t ^ 12 * s ^ 7) +
        148929789769202203364686651352329 / 24758800785707605497982484480000000 * (t ^ 13 * s ^ 6) +
        121428396019950949637381651906907 / 49517601571415210995964968960000000 * (t ^ 14 * s ^ 5) +
        74867801028186691899104582078563 / 99035203142830421991929937920000000 * (t ^ 15 * s ^ 4) +
        134881189119340820058488964704001 / 792281625142643375935439503360000000 * (t ^ 16 * s ^ 3) +
        41947320481428681606559817537993 / 1584563250285286751870879006720000000 * (t ^ 17 * s ^ 2) +
        8102496220938299478499197447679 / 3169126500570573503741758013440000000 * (t ^ 18 * s) +
        741798214787788170038512638407 / 6338253001141147007483516026880000000 * (t ^ 19) := by
    rw [acosW, hv, hst]; ring
  have a0 : 0 ≤ 3 / 20000000 + (acosW v ^ 2 * (2 - v) - 4) := by rw [a]; positivity
  have b0 : 0 ≤ 3 / 20000000 - (acosW v ^ 2 * (2 - v) - 4) := by rw [b]; positivity
  rw [abs_le]
  constructor <;> linarith

theorem acosW_sq_3 (v : ℝ) (h0 : 3 / 4 ≤ v) (h1 : v ≤ 1) : |acosW v ^ 2 * (2 - v) - 4| ≤ 3 / 20000000 := by
  obtain ⟨t, ht, hv⟩ : ∃ t : ℝ, 0 ≤ t ∧ v = 3 / 4 + t * (1 / 4) := ⟨(v - (3 / 4)) * (4), mul_nonneg (by linarith) (by norm_num), by ring⟩
  obtain ⟨s, hs, hst⟩ : ∃ s : ℝ, 0 ≤ s ∧ s = 1 - t := ⟨1 - t, by linarith, rfl⟩
  have a : 3 / 20000000 + (acosW v ^ 2 * (2 - v) - 4) = 1159677685554555932206542169657 / 6338253001141147007483516026880000000 * (s ^ 19) +
        6036175596611296609547738997277 / 1584563250285286751870879006720000000 * (t * s ^ 18) +
        7292276438298017787602021049671 / 198070406285660843983859875840000000 * (t ^ 2 * s ^ 17) +
        10810778814888296598403924566461 / 49517601571415210995964968960000000 * (t ^ 3 * s ^ 16) +
        21928238059282746312637786242297 / 24758800785707605497982484480000000 * (t ^ 4 * s ^ 15) +
        16067746535740376572320860716879 / 6189700196426901374495621120000000 * (t ^ 5 * s ^ 14) +
        4378618313367926428858341182397 / 773712524553362671811952640000000 * (t ^ 6 * s ^ 13) +
        899690533415615119191924039831 / 96714065569170333976494080000000 * (t ^ 7 * s ^ 12) +
        558735932273393080539749963467 / 48357032784585166988247040000000 * (t ^ 8 * s ^ 11) +
        130159051321573265360007330417 / 12089258196146291747061760000000 * (t ^ 9 * s ^ 10) +
        45044826439695489322001204271 / 6044629098073145873530880000000 * (t ^ 10 * s ^ 9) +
        5929020950957917048598927081 / 1511157274518286468382720000000 * (t ^ 11 * s ^ 8) +
        90417244817263733533680447 / 47223664828696452136960000000 * (t ^ 12 * s ^ 7) +
        7438048927756177026890601 / 5902958103587056517120000000 * (t ^ 13 * s ^ 6) +
        22604620634244406764658441 / 23611832414348226068480000000 * (t ^ 14 * s ^ 5) +
        3314135397504295700069193 / 5902958103587056517120000000 * (t ^ 15 * s ^ 4) +
        317545208062162363456473 / 1475739525896764129280000000 * (t ^ 16 * s ^ 3) +
        17880723248749597244633 / 368934881474191032320000000 * (t ^ 17 * s ^ 2) +
        472065904487444782403 / 92233720368547758080000000 * (t ^ 18 * s) +
        1778358566914369053 / 23058430092136939520000000 * (t ^ 19) := by
    rw [acosW, hv, hst]; ring
  have b : 3 / 20000000 - (acosW v ^ 2 * (2 - v) - 4) = 741798214787788170038512638407 / 6338253001141147007483516026880000000 * (s ^ 19) +
        2995834930014837876116271341027 / 1584563250285286751870879006720000000 * (t * s ^ 18) +
        2868735404156383508769990580921 / 198070406285660843983859875840000000 * (t ^ 2 * s ^ 17) +
        3583987961922105238123091910211 / 49517601571415210995964968960000000 * (t ^ 3 * s ^ 16) +
        6861295494338057360416246711047 / 24758800785707605497982484480000000 * (t ^ 4 * s ^ 15) +
        5524403629475226182469663998129 / 6189700196426901374495621120000000 * (t ^ 5 * s ^ 14) +
        1919092151486624374622228526147 / 773712524553362671811952640000000 * (t ^ 6 * s ^ 13) +
        562277967354191317330351071081 / 96714065569170333976494080000000 * (t ^ 7 * s ^ 12) +
        537740443303961746851956369717 / 48357032784585166988247040000000 * (t ^ 8 * s ^ 11) +
        204875396771507376343014049167 / 12089258196146291747061760000000 * (t ^ 9 * s ^ 10) +
        122472397606844831529509485521 / 6044629098073145873530880000000 * (t ^ 10 * s ^ 9) +
        28335865785834421307391895831 / 1511157274518286468382720000000 * (t ^ 11 * s ^ 8) +
        623434562199243315549461697 / 47223664828696452136960000000 * (t ^ 12 * s ^ 7) +
        40609668852201028199859351 / 5902958103587056517120000000 * (t ^ 13 * s ^ 6) +
        59762895559967945052627191 / 23611832414348226068480000000 * (t ^ 14 * s ^ 5) +
        3549824285346733618037943 / 5902958103587056517120000000 * (t ^ 15 * s ^ 4) +
        111452272116026968925223 / 1475739525896764129280000000 * (t ^ 16 * s ^ 3) +
        1045636170876402713383 / 368934881474191032320000000 * (t ^ 17 * s ^ 2) +
        53666301613277438653 / 92233720368547758080000000 * (t ^ 18 * s) +
        5139170460726712803 / 23058430092136939520000000 * (t ^ 19) := by
    rw [acosW, hv, hst]; ring
  have a0 : 0 ≤ 3 / 20000000 + (acosW v ^ 2 * (2 - v) - 4) := by rw [a]; positivity
  have b0 : 0 ≤ 3 / 20000000 - (acosW v ^ 2 * (2 - v) - 4) := by rw [b]; positivity
  rw [abs_le]
  constructor <;> linarith

/-- its square -/
theorem acosW_sq (v : ℝ) (h0 : 0 ≤ v) (h1 : v ≤ 1) : |acosW v ^ 2 * (2 - v) - 4| ≤ 3 / 20000000 := by
  rcases le_total v (1 / 4) with g0 | g0
  · exact acosW_sq_0 v h0 g0
  rcases le_total v (1 / 2) with g1 | g1
  · exact acosW_sq_1 v g0 g1
  rcases le_total v (3 / 4) with g2 | g2
  · exact acosW_sq_2 v g1 g2
  exact acosW_sq_3 v g2 h1

theorem acosPV_0 (v : ℝ) (h0 : 0 ≤ v) (h1 : v ≤ 1 / 2) : |acosP (1 - v) - acosV v| ≤ 83 / 1000000 := by
  obtain ⟨t, ht, hv⟩ : ∃ t : ℝ, 0 ≤ t ∧ v = 0 + t * (1 / 2) := ⟨(v - (0)) * (2), mul_nonneg (by linarith) (by norm_num), by ring⟩
  obtain ⟨s, hs, hst⟩ : ∃ s : ℝ, 0 ≤ s ∧ s = 1 - t := ⟨1 - t, by linarith, rfl⟩
  have a : 83 / 1000000 + (acosP (1 - v) - acosV v) = 2085087049 / 134217728000000 * (s ^ 19) +
        2028458331547 / 1610612736000000 * (t * s ^ 18) +
        9612939032141 / 536870912000000 * (t ^ 2 * s ^ 17) +
        275081361579571 / 2147483648000000 * (t ^ 3 * s ^ 16) +
        5621525845566653 / 9663676416000000 * (t ^ 4 * s ^ 15) +
        526349557643137339 / 283467841536000000 * (t ^ 5 * s ^ 14) +
        32447587945966201691 / 7370163879936000000 * (t ^ 6 * s ^ 13) +
        27257486591705738503 / 3401614098432000000 * (t ^ 7 * s ^ 12) +
        440363069401422535801 / 38551626448896000000 * (t ^ 8 * s ^ 11) +
        1718245996059861114007 / 133178345914368000000 * (t ^ 9 * s ^ 10) +
        36233577553709158507 / 3121367482368000000 * (t ^ 10 * s ^ 9) +
        369358639894135519161 / 44392781971456000000 * (t ^ 11 * s ^ 8) +
        52465725115642532881 / 11098195492864000000 * (t ^ 12 * s ^ 7) +
        421067475525041683837 / 199767518871552000000 * (t ^ 13 * s ^ 6) +
        3020259710232912551 / 4161823309824000000 * (t ^ 14 * s ^ 5) +
        12551604547506890897 / 66589172957184000000 * (t ^ 15 * s ^ 4) +
        78551660244309580369 / 2197442707587072000000 * (t ^ 16 * s ^ 3) +
        6920531188356790889 / 1464961805058048000000 * (t ^ 17 * s ^ 2) +
        73621479672933337 / 183120225632256000000 * (t ^ 18 * s) +
        1010735616974423251 / 57133510397263872000000 * (t ^ 19) := by
    rw [acosP, acosV, hv, hst]; ring
  have b : 83 / 1000000 - (acosP (1 - v) - acosV v) = 20195055799 / 134217728000000 * (s ^ 19) +
        3051414237797 / 1610612736000000 * (t * s ^ 18) +
        5626678675891 / 536870912000000 * (t ^ 2 * s ^ 17) +
        70349973135821 / 2147483648000000 * (t ^ 3 * s ^ 16) +
        596238179310403 / 9663676416000000 * (t ^ 4 * s ^ 15) +
        20813676546043589 / 283467841536000000 * (t ^ 5 * s ^ 14) +
        746981594844107941 / 7370163879936000000 * (t ^ 6 * s ^ 13) +
        1195001586131669753 / 3401614098432000000 * (t ^ 7 * s ^ 12) +
        43329229621813404551 / 38551626448896000000 * (t ^ 8 * s ^ 11) +
        324010377593801745257 / 133178345914368000000 * (t ^ 9 * s ^ 10) +
        11631806203798564757 / 3121367482368000000 * (t ^ 10 * s ^ 9) +
        187620371102317987911 / 44392781971456000000 * (t ^ 11 * s ^ 8) +
        40364110050433051631 / 11098195492864000000 * (t ^ 12 * s ^ 7) +
        478667849930767827587 / 199767518871552000000 * (t ^ 13 * s ^ 6) +
        5013091409908243801 / 4161823309824000000 * (t ^ 14 * s ^ 5) +
        30292934759912609647 / 66589172957184000000 * (t ^ 15 * s ^ 4) +
        274915789041901299119 / 2197442707587072000000 * (t ^ 16 * s ^ 3) +
        34663874610020959639 / 1464961805058048000000 * (t ^ 17 * s ^ 2) +
        503939711971202087 / 183120225632256000000 * (t ^ 18 * s) +
        8473427108971379501 / 57133510397263872000000 * (t ^ 19) := by
    rw [acosP, acosV, hv, hst]; ring
  have a0 : 0 ≤ 83 / 1000000 + (acosP (1 - v) - acosV v) := by rw [a]; positivity
  have b0 : 0 ≤ 83 / 1000000 - (acosP (1 - v) - acosV v) := by rw [b]; positivity
  rw [abs_le]
  constructor <;> linarith

theorem acosPV_1 (v : ℝ) (h0 : 1 / 2 ≤ v) (h1 : v ≤ 1) : |acosP (1 - v) - acosV v| ≤ 83 / 1000000 := by
  obtain ⟨t, ht, hv⟩ : ∃ t : ℝ, 0 ≤ t ∧ v = 1 / 2 + t * (1 / 2) := ⟨(v - (1 / 2)) * (2), mul_nonneg (by linarith) (by norm_num), by ring⟩
  obtain ⟨s, hs, hst⟩ : ∃ s : ℝ, 0 ≤ s ∧ s = 1 - t := ⟨1 - t, by linarith, rfl⟩
  have a : 83 / 1000000 + (acosP (1 - v) - acosV v) = 1010735616974423251 / 57133510397263872000000 * (s ^ 19) +
        7719025893536441197 / 28566755198631936000000 * (t * s ^ 18) +
        44775806223344369057 / 19044503465754624000000 * (t ^ 2 * s ^ 17) +
        20725542671050035701 / 1298488872665088000000 * (t ^ 3 * s ^ 16) +
        2487273534913648144813 / 28566755198631936000000 * (t ^ 4 * s ^ 15) +
        1752970648647623848969 / 4761125866438656000000 * (t ^ 5 * s ^ 14) +
        33998990564656353701191 / 28566755198631936000000 * (t ^ 6 * s ^ 13) +
        73864451683220910701 / 24970939858944000000 * (t ^ 7 * s ^ 12) +
        440827604886703962227 / 77103252897792000000 * (t ^ 8 * s ^ 11) +
        577985246372891380441 / 66589172957184000000 * (t ^ 9 * s ^ 10) +
        1386794874704052926507 / 133178345914368000000 * (t ^ 10 * s ^ 9) +
        212942899097755198591 / 21543555956736000000 * (t ^ 11 * s ^ 8) +
        8122673064745428523969 / 1098721353793536000000 * (t ^ 12 * s ^ 7) +
        7696192002314924663551 / 1785422199914496000000 * (t ^ 13 * s ^ 6) +
        2736075297692151251 / 1423781658624000000 * (t ^ 14 * s ^ 5) +
        1131977020846149744793 / 1785422199914496000000 * (t ^ 15 * s ^ 4) +
        32678495603031418099 / 223177774989312000000 * (t ^ 16 * s ^ 3) +
        3173962798111054519 / 148785183326208000000 * (t ^ 17 * s ^ 2) +
        31190210627697559 / 20288888635392000000 * (t ^ 18 * s) +
        1724272381053323 / 111588887494656000000 * (t ^ 19) := by
    rw [acosP, acosV, hv, hst]; ring
  have b : 83 / 1000000 - (acosP (1 - v) - acosV v) = 8473427108971379501 / 57133510397263872000000 * (s ^ 19) +
        82380520002948684947 / 28566755198631936000000 * (t * s ^ 18) +
        495821469155566387807 / 19044503465754624000000 * (t ^ 2 * s ^ 17) +
        188141586452620029451 / 1298488872665088000000 * (t ^ 3 * s ^ 16) +
        15893033827969317588563 / 28566755198631936000000 * (t ^ 4 * s ^ 15) +
        7437183032793859017719 / 4761125866438656000000 * (t ^ 5 * s ^ 14) +
        94663160975524406432441 / 28566755198631936000000 * (t ^ 6 * s ^ 13) +
        135002677440449154451 / 24970939858944000000 * (t ^ 7 * s ^ 12) +
        526556993159767918477 / 77103252897792000000 * (t ^ 8 * s ^ 11) +
        443142940453940049191 / 66589172957184000000 * (t ^ 9 * s ^ 10) +
        655461498949609932757 / 133178345914368000000 * (t ^ 10 * s ^ 9) +
        57355738591700179841 / 21543555956736000000 * (t ^ 11 * s ^ 8) +
        1067480616696054342719 / 1098721353793536000000 * (t ^ 12 * s ^ 7) +
        345192468946372844801 / 1785422199914496000000 * (t ^ 13 * s ^ 6) +
        12176401303507501 / 1423781658624000000 * (t ^ 14 * s ^ 5) +
        16792189334035613543 / 1785422199914496000000 * (t ^ 15 * s ^ 4) +
        3220542215099374349 / 223177774989312000000 * (t ^ 16 * s ^ 3) +
        1049453415786685769 / 148785183326208000000 * (t ^ 17 * s ^ 2) +
        32800944128328809 / 20288888635392000000 * (t ^ 18 * s) +
        16799482943059573 / 111588887494656000000 * (t ^ 19) := by
    rw [acosP, acosV, hv, hst]; ring
  have a0 : 0 ≤ 83 / 1000000 + (acosP (1 - v) - acosV v) := by rw [a]; positivity
  have b0 : 0 ≤ 83 / 1000000 - (acosP (1 - v) - acosV v) := by rw [b]; positivity
  rw [abs_le]
  constructor <;> linarith

/-- the polynomials are close to each other -/
theorem acosPV (v : ℝ) (h0 : 0 ≤ v) (h1 : v ≤ 1) : |acosP (1 - v) - acosV v| ≤ 83 / 1000000 := by
  rcases le_total v (1 / 2) with g0 | g0
  · exact acosPV_0 v h0 g0
  exact acosPV_1 v g0 h1

theorem acosPLV_0 (v : ℝ) (h0 : 0 ≤ v) (h1 : v ≤ 1 / 2) : |acosPL (1 - v) - acosV v| ≤ 11 / 100000000 := by
  obtain ⟨t, ht, hv⟩ : ∃ t : ℝ, 0 ≤ t ∧ v = 0 + t * (1 / 2) := ⟨(v - (0)) * (2), mul_nonneg (by linarith) (by norm_num), by ring⟩
  obtain ⟨s, hs, hst⟩ : ∃ s : ℝ, 0 ≤ s ∧ s = 1 - t := ⟨1 - t, by linarith, rfl⟩
  have a : 11 / 100000000 + (acosPL (1 - v) - acosV v) = 147614377 / 3355443200000000 * (s ^ 19) +
        73633812331 / 40265318400000000 * (t * s ^ 18) +
        209530499493 / 13421772800000000 * (t ^ 2 * s ^ 17) +
        3342715722883 / 53687091200000000 * (t ^ 3 * s ^ 16) +
        34422581683769 / 241591910400000000 * (t ^ 4 * s ^ 15) +
        1628229273093547 / 7086696038400000000 * (t ^ 5 * s ^ 14) +
        82229561737336643 / 184254096998400000000 * (t ^ 6 * s ^ 13) +
        107223204568911319 / 85040352460800000000 * (t ^ 7 * s ^ 12) +
        2990148906955398673 / 963790661222400000000 * (t ^ 8 * s ^ 11) +
        18252700858580198911 / 3329458647859200000000 * (t ^ 9 * s ^ 10) +
        4242494094429887 / 609642086400000000 * (t ^ 10 * s ^ 9) +
        7199508737914755953 / 1109819549286400000000 * (t ^ 11 * s ^ 8) +
        1249644343003201513 / 277454887321600000000 * (t ^ 12 * s ^ 7) +
        11681683307686312501 / 4994187971788800000000 * (t ^ 13 * s ^ 6) +
        94140102192851423 / 104045582745600000000 * (t ^ 14 * s ^ 5) +
        428936483185389881 / 1664729323929600000000 * (t ^ 15 * s ^ 4) +
        2911453231271165737 / 54936067689676800000000 * (t ^ 16 * s ^ 3) +
        279582442301437697 / 36624045126451200000000 * (t ^ 17 * s ^ 2) +
        3290455492176001 / 4578005640806400000000 * (t ^ 18 * s) +
        49854410168022523 / 1428337759931596800000000 * (t ^ 19) := by
    rw [acosPL, acosV, hv, hst]; ring
  have b : 11 / 100000000 - (acosPL (1 - v) - acosV v) = 590583127 / 3355443200000000 * (s ^ 19) +
        94675218581 / 40265318400000000 * (t * s ^ 18) +
        295396593243 / 13421772800000000 * (t ^ 2 * s ^ 17) +
        8102298379133 / 53687091200000000 * (t ^ 3 * s ^ 16) +
        171587672152519 / 241591910400000000 * (t ^ 4 * s ^ 15) +
        16500673064499797 / 7086696038400000000 * (t ^ 5 * s ^ 14) +
        1017590513409992893 / 184254096998400000000 * (t ^ 6 * s ^ 13) +
        835479716985942569 / 85040352460800000000 * (t ^ 7 * s ^ 12) +
        13035800759477117423 / 963790661222400000000 * (t ^ 8 * s ^ 11) +
        49412419955245980161 / 3329458647859200000000 * (t ^ 9 * s ^ 10) +
        8147359570211137 / 609642086400000000 * (t ^ 10 * s ^ 9) +
        11254615120401474703 / 1109819549286400000000 * (t ^ 11 * s ^ 8) +
        1826042966716170263 / 277454887321600000000 * (t ^ 12 * s ^ 7) +
        18128824463439906251 / 4994187971788800000000 * (t ^ 13 * s ^ 6) +
        172025145763632673 / 104045582745600000000 * (t ^ 14 * s ^ 5) +
        990611505915858631 / 1664729323929600000000 * (t ^ 15 * s ^ 4) +
        8799817678814134487 / 54936067689676800000000 * (t ^ 16 * s ^ 3) +
        1098214135355656447 / 36624045126451200000000 * (t ^ 17 * s ^ 2) +
        15845608086394751 / 4578005640806400000000 * (t ^ 18 * s) +
        264379897016928773 / 1428337759931596800000000 * (t ^ 19) := by
    rw [acosPL, acosV, hv, hst]; ring
  have a0 : 0 ≤ 11 / 100000000 + (acosPL (1 - v) - acosV v) := by rw [a]; positivity
  have b0 : 0 ≤ 11 / 100000000 - (acosPL (1 - v) - acosV v) := by rw [b]; positivity
  rw [abs_le]
  constructor <;> linarith

theorem acosPLV_1 (v : ℝ) (h0 : 1 / 2 ≤ v) (h1 : v ≤ 1) : |acosPL (1 - v) - acosV v| ≤ 11 / 100000000 := by
  obtain ⟨t, ht, hv⟩ : ∃ t : ℝ, 0 ≤ t ∧ v = 1 / 2 + t * (1 / 2) := ⟨(v - (1 / 2)) * (2), mul_nonneg (by linarith) (by norm_num), by ring⟩
  obtain ⟨s, hs, hst⟩ : ∃ s : ℝ, 0 ≤ s ∧ s = 1 - t := ⟨1 - t, by linarith, rfl⟩
  have a : 11 / 100000000 + (acosPL (1 - v) - acosV v) = 49854410168022523 / 1428337759931596800000000 * (s ^ 19) +
        433922736412971781 / 714168879965798400000000 * (t * s ^ 18) +
        2681911905520877561 / 476112586643865600000000 * (t ^ 2 * s ^ 17) +
        1209254286434371373 / 32462221816627200000000 * (t ^ 3 * s ^ 16) +
        133650726845131008949 / 714168879965798400000000 * (t ^ 4 * s ^ 15) +
        84746026061125543537 / 119028146660966400000000 * (t ^ 5 * s ^ 14) +
        1454207008974090500143 / 714168879965798400000000 * (t ^ 6 * s ^ 13) +
        2728923135481246373 / 624273496473600000000 * (t ^ 7 * s ^ 12) +
        13569011347745562971 / 1927581322444800000000 * (t ^ 8 * s ^ 11) +
        14072566661610685393 / 1664729323929600000000 * (t ^ 9 * s ^ 10) +
        24789380025925511411 / 3329458647859200000000 * (t ^ 10 * s ^ 9) +
        2500043673148290343 / 538588898918400000000 * (t ^ 11 * s ^ 8) +
        52415497969233043537 / 27468033844838400000000 * (t ^ 12 * s ^ 7) +
        20363486807375055673 / 44635554997862400000000 * (t ^ 13 * s ^ 6) +
        2918063574616523 / 35594541465600000000 * (t ^ 14 * s ^ 5) +
        2905911669015253489 / 44635554997862400000000 * (t ^ 15 * s ^ 4) +
        264448735315816027 / 5579444374732800000000 * (t ^ 16 * s ^ 3) +
        59208233963758687 / 3719629583155200000000 * (t ^ 17 * s ^ 2) +
        1098761473308607 / 507222215884800000000 * (t ^ 18 * s) +
        96150215532179 / 2789722187366400000000 * (t ^ 19) := by
    rw [acosPL, acosV, hv, hst]; ring
  have b : 11 / 100000000 - (acosPL (1 - v) - acosV v) = 264379897016928773 / 1428337759931596800000000 * (s ^ 19) +
        2551303181844065531 / 714168879965798400000000 * (t * s ^ 18) +
        15229443604021346311 / 476112586643865600000000 * (t ^ 2 * s ^ 17) +
        5711042160434215123 / 32462221816627200000000 * (t ^ 3 * s ^ 16) +
        475335360479304602699 / 714168879965798400000000 * (t ^ 4 * s ^ 15) +
        219747017601092262287 / 119028146660966400000000 * (t ^ 5 * s ^ 14) +
        2808695602296958781393 / 714168879965798400000000 * (t ^ 6 * s ^ 13) +
        4191373311387340123 / 624273496473600000000 * (t ^ 7 * s ^ 12) +
        18482887985119469221 / 1927581322444800000000 * (t ^ 8 * s ^ 11) +
        19759993745302404143 / 1664729323929600000000 * (t ^ 9 * s ^ 10) +
        42875740787900667661 / 3329458647859200000000 * (t ^ 10 * s ^ 9) +
        6455634081622821593 / 538588898918400000000 * (t ^ 11 * s ^ 8) +
        252077545692984762287 / 27468033844838400000000 * (t ^ 12 * s ^ 7) +
        246067926397065524423 / 44635554997862400000000 * (t ^ 13 * s ^ 6) +
        88138468621022773 / 35594541465600000000 * (t ^ 14 * s ^ 5) +
        35155718788761972239 / 44635554997862400000000 * (t ^ 15 * s ^ 4) +
        924977216489722277 / 5579444374732800000000 * (t ^ 16 * s ^ 3) +
        80724230954539937 / 3719629583155200000000 * (t ^ 17 * s ^ 2) +
        1021427389089857 / 507222215884800000000 * (t ^ 18 * s) +
        517588665688429 / 2789722187366400000000 * (t ^ 19) := by
    rw [acosPL, acosV, hv, hst]; ring
  have a0 : 0 ≤ 11 / 100000000 + (acosPL (1 - v) - acosV v) := by rw [a]; positivity
  have b0 : 0 ≤ 11 / 100000000 - (acosPL (1 - v) - acosV v) := by rw [b]; positivity
  rw [abs_le]
  constructor <;> linarith

/-- the polynomials are close to each other -/
theorem acosPLV (v : ℝ) (h0 : 0 ≤ v) (h1 : v ≤ 1) : |acosPL (1 - v) - acosV v| ≤ 11 / 100000000 := by
  rcases le_total v (1 / 2) with g0 | g0
  · exact acosPLV_0 v h0 g0
  exact acosPLV_1 v g0 h1

theorem acosW_ge (v : ℝ) (h0 : 0 ≤ v) (h1 : v ≤ 1) : 1 ≤ acosW v := by
  rw [acosW]
  have p2 : 0 ≤ v ^ 2 := by positivity
  have p3 : 0 ≤ v ^ 3 := by positivity
  have p4 : 0 ≤ v ^ 4 := by positivity
  have p5 : 0 ≤ v ^ 5 := by positivity
  have p6 : 0 ≤ v ^ 6 := by positivity
  have p7 : 0 ≤ v ^ 7 := by positivity
  have p8 : 0 ≤ v ^ 8 := by positivity
  have p9 : 0 ≤ v ^ 9 := by positivity
  have l6 : v ^ 6 ≤ 1 := pow_le_one₀ h0 h1
  have l8 : v ^ 8 ≤ 1 := pow_le_one₀ h0 h1
  linarith

/-- `s · acosV (s²)` -/
noncomputable def acosQ (s : ℝ) : ℝ := (12148001919 / 8589934592) * s + (6074033249 / 51539607552) * s ^ 3 + (1138349573 / 42949672960) * s ^ 5 + (137458597 / 17179869184) * s ^ 7 + (83201011 / 38654705664) * s ^ 9 + (478429575 / 188978561024) * s ^ 11 + (-526730671 / 223338299392) * s ^ 13 + (160713271 / 51539607552) * s ^ 15 + (-513298625 / 292057776128) * s ^ 17 + (176020965 / 326417514496) * s ^ 19

theorem acosQ_eq (s : ℝ) : acosQ s = s * acosV (s ^ 2) := by rw [acosQ, acosV]; ring

theorem hasDerivAt_acosQ (s : ℝ) : HasDerivAt acosQ (acosW (s ^ 2)) s := by
  unfold acosQ acosW
  have h (c : ℝ) (n : ℕ) : HasDerivAt (fun v : ℝ => c * v ^ n) (c * (n * s ^ (n - 1))) s := (hasDerivAt_pow n s).const_mul c
  have h1 (c : ℝ) : HasDerivAt (fun v : ℝ => c * v) (c * 1) s := (hasDerivAt_id s).const_mul c
  refine HasDerivAt.congr_deriv ((((((((((h1 _).fun_add (h _ 3)).fun_add (h _ 5)).fun_add (h _ 7)).fun_add (h _ 9)).fun_add (h _ 11)).fun_add (h _ 13)).fun_add (h _ 15)).fun_add (h _ 17)).fun_add (h _ 19)) ?_
  norm_num
  ring

/-- the arc cosine through an arc sine without the singularity -/
theorem arccos_arcsin (s : ℝ) (h0 : 0 ≤ s) (h1 : s ≤ 1) : Real.arccos (1 - s ^ 2) = 2 * Real.arcsin (s / √2) := by
  have h2 : (0 : ℝ) < √2 := by positivity
  have h2' : (1 : ℝ) ≤ √2 := Real.one_le_sqrt.2 (by norm_num)
  have hs0 : 0 ≤ s / √2 := by positivity
  have hs1 : s / √2 ≤ 1 := by rw [div_le_one h2]; linarith
  have ha0 : 0 ≤ Real.arcsin (s / √2) := Real.arcsin_nonneg.2 hs0
  have ha1 := Real.arcsin_le_pi_div_two (s / √2)
  have e : 1 - s ^ 2 = Real.cos (2 * Real.arcsin (s / √2)) := by
    rw [Real.cos_two_mul, ← Real.sin_sq_add_cos_sq (Real.arcsin (s / √2)), Real.sin_arcsin (by linarith) hs1]
    have hc := Real.sin_sq_add_cos_sq (Real.arcsin (s / √2))
    rw [Real.sin_arcsin (by linarith) hs1, div_pow, Real.sq_sqrt (by norm_num)] at hc
    rw [div_pow, Real.sq_sqrt (by norm_num)]
    linarith
  rw [e, Real.arccos_cos (by linarith) (by linarith)]

theorem acosQ_close (s : ℝ) (h0 : 0 ≤ s) (h1 : s ≤ 1) : |acosQ s - Real.arccos (1 - s ^ 2)| ≤ 3 / 20000000 := by
  have h2 : (0 : ℝ) < √2 := by positivity
  have h22 : √2 ^ 2 = 2 := Real.sq_sqrt (by norm_num)
  have h2' : (1 : ℝ) < √2 := by nlinarith
  rw [arccos_arcsin s h0 h1]
  have := Convex.norm_image_sub_le_of_norm_hasDerivWithin_le (f := fun z => acosQ z - 2 * Real.arcsin (z / √2))
    (f' := fun z => acosW (z ^ 2) - 2 * (1 / √(1 - (z / √2) ^ 2) * (1 / √2)))
    (C := 3 / 20000000) (s := Set.Icc 0 1) (x := 0) (y := s)
    (fun z hz => by
      have hz0 : 0 ≤ z / √2 := div_nonneg hz.1 h2.le
      have hz1 : z / √2 < 1 := by rw [div_lt_one h2]; linarith [hz.2]
      exact ((hasDerivAt_acosQ z).sub (((Real.hasDerivAt_arcsin (by linarith) hz1.ne).comp z ((hasDerivAt_id z).div_const √2)).const_mul 2)).hasDerivWithinAt)
    (fun z hz => by
      rw [Real.norm_eq_abs]
      have hv0 : 0 ≤ z ^ 2 := sq_nonneg z
      have hv1 : z ^ 2 ≤ 1 := pow_le_one₀ hz.1 hz.2
      have hw := acosW_ge (z ^ 2) hv0 hv1
      have hq := acosW_sq (z ^ 2) hv0 hv1
      set W := acosW (z ^ 2)
      set r := √(1 - (z / √2) ^ 2) with hr
      have hr2 : r ^ 2 = 1 - z ^ 2 / 2 := by
        rw [hr, Real.sq_sqrt]
        · rw [div_pow, h22]
        · rw [div_pow, h22]; linarith
      have hr0 : 0 < r := by
        refine lt_of_le_of_ne (Real.sqrt_nonneg _) fun e => ?_
        rw [← e] at hr2; linarith
      set m := 2 * (1 / r * (1 / √2)) with hm
      have hm0 : 0 < m := by positivity
      have hm2 : m ^ 2 * (2 - z ^ 2) = 4 := by
        rw [hm, show 2 - z ^ 2 = 2 * r ^ 2 by rw [hr2]; ring]
        field_simp
        rw [h22]; norm_num
      have e : W ^ 2 * (2 - z ^ 2) - 4 = (W - m) * ((W + m) * (2 - z ^ 2)) := by rw [← hm2]; ring
      rw [e, abs_mul] at hq
      have hb : 1 ≤ |(W + m) * (2 - z ^ 2)| := by
        rw [abs_of_nonneg (mul_nonneg (by linarith) (by linarith))]; nlinarith
      have := abs_nonneg (W - m)
      nlinarith) (convex_Icc _ _) ⟨le_rfl, zero_le_one⟩ ⟨h0, h1⟩
  have e0 : acosQ 0 = 0 := by simp [acosQ]
  rw [Real.norm_eq_abs, Real.norm_eq_abs, e0, zero_div, Real.arcsin_zero, mul_zero, sub_zero, sub_zero, sub_zero, abs_of_nonneg h0] at this
  linarith

/-- `√(1 - v)` times the polynomial is within `9·10⁻⁵` of the arc cosine -/
theorem acosP_close (v : ℝ) (h0 : 0 ≤ v) (h1 : v ≤ 1) : |√(1 - v) * acosP v - Real.arccos v| ≤ 9 / 100000 := by
  set s := √(1 - v) with hs
  have hs2 : s ^ 2 = 1 - v := Real.sq_sqrt (by linarith)
  have hs0 : 0 ≤ s := Real.sqrt_nonneg _
  have hs1 : s ≤ 1 := by nlinarith
  have a := acosQ_close s hs0 hs1
  have b := acosPV (s ^ 2) (sq_nonneg s) (by rw [hs2]; linarith)
  rw [acosQ_eq, hs2, sub_sub_cancel] at a
  rw [hs2, sub_sub_cancel] at b
  have e : s * acosP v - Real.arccos v = s * (acosP v - acosV (1 - v)) + (s * acosV (1 - v) - Real.arccos v) := by ring
  rw [e]
  refine (abs_add_le _ _).trans ?_
  rw [abs_mul, abs_of_nonneg hs0]
  have := abs_nonneg (acosP v - acosV (1 - v))
  nlinarith

/-- and the polynomial for more fraction bits within `2.6·10⁻⁷` -/
theorem acosPL_close (v : ℝ) (h0 : 0 ≤ v) (h1 : v ≤ 1) : |√(1 - v) * acosPL v - Real.arccos v| ≤ 26 / 100000000 := by
  set s := √(1 - v) with hs
  have hs2 : s ^ 2 = 1 - v := Real.sq_sqrt (by linarith)
  have hs0 : 0 ≤ s := Real.sqrt_nonneg _
  have hs1 : s ≤ 1 := by nlinarith
  have a := acosQ_close s hs0 hs1
  have b := acosPLV (s ^ 2) (sq_nonneg s) (by rw [hs2]; linarith)
  rw [acosQ_eq, hs2, sub_sub_cancel] at a
  rw [hs2, sub_sub_cancel] at b
  have e : s * acosPL v - Real.arccos v = s * (acosPL v - acosV (1 - v)) + (s * acosV (1 - v) - Real.arccos v) := by ring
  rw [e]
  refine (abs_add_le _ _).trans ?_
  rw [abs_mul, abs_of_nonneg hs0]
  have := abs_nonneg (acosPL v - acosV (1 - v))
  nlinarith

/-- C93: at zero the polynomials miss the accuracy stated beside them, `5e-5` and `2e-8`. -/
theorem c93_acos_error : (67 : ℝ) / 1000000 ≤ |√(1 - 0) * acosP 0 - Real.arccos 0| ∧ (7 : ℝ) / 100000000 ≤ |√(1 - 0) * acosPL 0 - Real.arccos 0| := by
  have h := Real.pi_gt_d20
  have l := Real.pi_lt_d20
  rw [Real.arccos_zero, sub_zero, Real.sqrt_one, acosP, acosPL]
  norm_num at h l ⊢
  constructor <;> rw [abs_sub_comm, abs_of_nonneg] <;> linarith

end Spu.Props
