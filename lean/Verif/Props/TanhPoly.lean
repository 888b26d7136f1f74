import Mathlib.Tactic.Linarith
import Mathlib.Tactic.Ring
import Mathlib.Tactic.Positivity
import Mathlib.Analysis.SpecialFunctions.Trigonometric.DerivHyp
import Mathlib.Analysis.SpecialFunctions.ExpDeriv
import Mathlib.Analysis.Calculus.MeanValue
import Mathlib.Analysis.Complex.ExponentialBounds

set_option autoImplicit false

/-! # C95: the polynomial for the hyperbolic tangent -/

namespace Spu.Props

/-- the polynomial of `tanh_chebyshev` in the scaled argument, with the exact coefficients -/
noncomputable def tanhP (v : ℝ) : ℝ := (166731373 / 33554432) * v + (-9751588069 / 268435456) * v ^ 3 + (958703397 / 4194304) * v ^ 5 + (-7841541709 / 8388608) * v ^ 7 + (5013248859 / 2097152) * v ^ 9 + (-3959301537 / 1048576) * v ^ 11 + (467673593 / 131072) * v ^ 13 + (-120939729 / 65536) * v ^ 15 + (6574595 / 16384) * v ^ 17

/-- a polynomial close to `exp (-10 v)`, and its derivative -/
noncomputable def tanhG (v : ℝ) : ℝ := 1 + (-167768135 / 16777216) * v + (1677264381 / 33554432) * v ^ 2 + (-44656636667 / 268435456) * v ^ 3 + (110865332193 / 268435456) * v ^ 4 + (-216616715885 / 268435456) * v ^ 5 + (339331032481 / 268435456) * v ^ 6 + (-422910946879 / 268435456) * v ^ 7 + (407708421481 / 268435456) * v ^ 8 + (-290387513543 / 268435456) * v ^ 9 + (142524878825 / 268435456) * v ^ 10 + (-42723224283 / 268435456) * v ^ 11 + (1465781101 / 67108864) * v ^ 12
noncomputable def tanhG' (v : ℝ) : ℝ := -167768135 / 16777216 + (1677264381 / 16777216) * v + (-133969910001 / 268435456) * v ^ 2 + (110865332193 / 67108864) * v ^ 3 + (-1083083579425 / 268435456) * v ^ 4 + (1017993097443 / 134217728) * v ^ 5 + (-2960376628153 / 268435456) * v ^ 6 + (407708421481 / 33554432) * v ^ 7 + (-2613487621887 / 268435456) * v ^ 8 + (712624394125 / 134217728) * v ^ 9 + (-469955467113 / 268435456) * v ^ 10 + (4397343303 / 16777216) * v ^ 11

theorem tanhG_ode_0 (v : ℝ) (h0 : 0 ≤ v) (h1 : v ≤ 1 / 4) : |tanhG' v + 10 * tanhG v| ≤ 3 / 10000 := by
  obtain ⟨t, ht, hv⟩ : ∃ t : ℝ, 0 ≤ t ∧ v = 0 + t * (1 / 4) := ⟨(v - (0)) * (4), mul_nonneg (by linarith) (by norm_num), by ring⟩
  obtain ⟨s, hs, hst⟩ : ∃ s : ℝ, 0 ≤ s ∧ s = 1 - t := ⟨1 - t, by linarith, rfl⟩
  have a : 3 / 10000 + (tanhG' v + 10 * tanhG v) = 5661353 / 10485760000 * (s ^ 12) +
        11139319 / 41943040000 * (t * s ^ 11) +
        44213159663 / 2684354560000 * (t ^ 2 * s ^ 10) +
        94642569259 / 1073741824000 * (t ^ 3 * s ^ 9) +
        1724506389037 / 8589934592000 * (t ^ 4 * s ^ 8) +
        11844858380921 / 42949672960000 * (t ^ 5 * s ^ 7) +
        186891772352817 / 687194767360000 * (t ^ 6 * s ^ 6) +
        291876597742597 / 1374389534720000 * (t ^ 7 * s ^ 5) +
        291263881975847 / 2199023255552000 * (t ^ 8 * s ^ 4) +
        136049973372557 / 2199023255552000 * (t ^ 9 * s ^ 3) +
        3461994889554993 / 175921860444160000 * (t ^ 10 * s ^ 2) +
        1315990972331077 / 351843720888320000 * (t ^ 11 * s) +
        28081462324749 / 87960930222080000 * (t ^ 12) := by
    rw [tanhG, tanhG', hv, hst]; ring
  have b : 3 / 10000 - (tanhG' v + 10 * tanhG v) = 630103 / 10485760000 * (s ^ 12) +
        290850569 / 41943040000 * (t * s ^ 11) +
        62087280913 / 2684354560000 * (t ^ 2 * s ^ 10) +
        47091351509 / 1073741824000 * (t ^ 3 * s ^ 9) +
        826704184787 / 8589934592000 * (t ^ 4 * s ^ 8) +
        8564826209671 / 42949672960000 * (t ^ 5 * s ^ 7) +
        194089006671567 / 687194767360000 * (t ^ 6 * s ^ 6) +
        361233309156347 / 1374389534720000 * (t ^ 7 * s ^ 5) +
        361846024923097 / 2199023255552000 * (t ^ 8 * s ^ 4) +
        154221096360307 / 2199023255552000 * (t ^ 9 * s ^ 3) +
        3504510784033743 / 175921860444160000 * (t ^ 10 * s ^ 2) +
        1217283818064827 / 351843720888320000 * (t ^ 11 * s) +
        24695095808499 / 87960930222080000 * (t ^ 12) := by
    rw [tanhG, tanhG', hv, hst]; ring
  have a0 : 0 ≤ 3 / 10000 + (tanhG' v + 10 * tanhG v) := by rw [a]; positivity
  have b0 : 0 ≤ 3 / 10000 - (tanhG' v + 10 * tanhG v) := by rw [b]; positivity
  rw [abs_le]
  constructor <;> linarith

theorem tanhG_ode_1 (v : ℝ) (h0 : 1 / 4 ≤ v) (h1 : v ≤ 1 / 2) : |tanhG' v + 10 * tanhG v| ≤ 3 / 10000 := by
  obtain ⟨t, ht, hv⟩ : ∃ t : ℝ, 0 ≤ t ∧ v = 1 / 4 + t * (1 / 4) := ⟨(v - (1 / 4)) * (4), mul_nonneg (by linarith) (by norm_num), by ring⟩
  obtain ⟨s, hs, hst⟩ : ∃ s : ℝ, 0 ≤ s ∧ s = 1 - t := ⟨1 - t, by linarith, rfl⟩
  have a : 3 / 10000 + (tanhG' v + 10 * tanhG v) = 28081462324749 / 87960930222080000 * (s ^ 12) +
        1379829410844827 / 351843720888320000 * (t * s ^ 11) +
        1906553150690309 / 87960930222080000 * (t ^ 2 * s ^ 10) +
        1244364034799331 / 17592186044416000 * (t ^ 3 * s ^ 9) +
        2617631885449 / 17179869184000 * (t ^ 4 * s ^ 8) +
        2553372531362651 / 10995116277760000 * (t ^ 5 * s ^ 7) +
        722304969823143 / 2748779069440000 * (t ^ 6 * s ^ 6) +
        618820843685819 / 2748779069440000 * (t ^ 7 * s ^ 5) +
        4954112766523 / 34359738368000 * (t ^ 8 * s ^ 4) +
        18233332694179 / 274877906944000 * (t ^ 9 * s ^ 3) +
        7052037339989 / 343597383680000 * (t ^ 10 * s ^ 2) +
        1307716468123 / 343597383680000 * (t ^ 11 * s) +
        6858557819 / 21474836480000 * (t ^ 12) := by
    rw [tanhG, tanhG', hv, hst]; ring
  have b : 3 / 10000 - (tanhG' v + 10 * tanhG v) = 24695095808499 / 87960930222080000 * (s ^ 12) +
        1153445379551077 / 351843720888320000 * (t * s ^ 11) +
        1576699686104059 / 87960930222080000 * (t ^ 2 * s ^ 10) +
        1077804523063581 / 17592186044416000 * (t ^ 3 * s ^ 9) +
        2484789262199 / 17179869184000 * (t ^ 4 * s ^ 8) +
        2671506723828901 / 10995116277760000 * (t ^ 5 * s ^ 7) +
        801618146274393 / 2748779069440000 * (t ^ 6 * s ^ 6) +
        687398970112069 / 2748779069440000 * (t ^ 7 * s ^ 5) +
        5250729528773 / 34359738368000 * (t ^ 8 * s ^ 4) +
        18050551022429 / 274877906944000 * (t ^ 9 * s ^ 3) +
        6554419053739 / 343597383680000 * (t ^ 10 * s ^ 2) +
        1166184694373 / 343597383680000 * (t ^ 11 * s) +
        6026344069 / 21474836480000 * (t ^ 12) := by
    rw [tanhG, tanhG', hv, hst]; ring
  have a0 : 0 ≤ 3 / 10000 + (tanhG' v + 10 * tanhG v) := by rw [a]; positivity
  have b0 : 0 ≤ 3 / 10000 - (tanhG' v + 10 * tanhG v) := by rw [b]; positivity
  rw [abs_le]
  constructor <;> linarith

theorem tanhG_ode_2 (v : ℝ) (h0 : 1 / 2 ≤ v) (h1 : v ≤ 3 / 4) : |tanhG' v + 10 * tanhG v| ≤ 3 / 10000 := by
  obtain ⟨t, ht, hv⟩ : ∃ t : ℝ, 0 ≤ t ∧ v = 1 / 2 + t * (1 / 4) := ⟨(v - (1 / 2)) * (4), mul_nonneg (by linarith) (by norm_num), by ring⟩
  obtain ⟨s, hs, hst⟩ : ∃ s : ℝ, 0 ≤ s ∧ s = 1 - t := ⟨1 - t, by linarith, rfl⟩
  have a : 3 / 10000 + (tanhG' v + 10 * tanhG v) = 6858557819 / 21474836480000 * (s ^ 12) +
        1325969734373 / 343597383680000 * (t * s ^ 11) +
        7252823268739 / 343597383680000 * (t ^ 2 * s ^ 10) +
        18950756902429 / 274877906944000 * (t ^ 3 * s ^ 9) +
        20635428858217 / 137438953472000 * (t ^ 4 * s ^ 8) +
        637528614132069 / 2748779069440000 * (t ^ 5 * s ^ 7) +
        727411846046893 / 2748779069440000 * (t ^ 6 * s ^ 6) +
        2503411477568901 / 10995116277760000 * (t ^ 7 * s ^ 5) +
        161116985084861 / 1099511627776000 * (t ^ 8 * s ^ 4) +
        1191118566847581 / 17592186044416000 * (t ^ 9 * s ^ 3) +
        1841403594414059 / 87960930222080000 * (t ^ 10 * s ^ 2) +
        1355586986831077 / 351843720888320000 * (t ^ 11 * s) +
        56202604797623 / 175921860444160000 * (t ^ 12) := by
    rw [tanhG, tanhG', hv, hst]; ring
  have b : 3 / 10000 - (tanhG' v + 10 * tanhG v) = 6026344069 / 21474836480000 * (s ^ 12) +
        1147931428123 / 343597383680000 * (t * s ^ 11) +
        6353633124989 / 343597383680000 * (t ^ 2 * s ^ 10) +
        17333126814179 / 274877906944000 * (t ^ 3 * s ^ 9) +
        20183940322967 / 137438953472000 * (t ^ 4 * s ^ 8) +
        668691199665819 / 2748779069440000 * (t ^ 5 * s ^ 7) +
        796511270050643 / 2748779069440000 * (t ^ 6 * s ^ 6) +
        2721467777622651 / 10995116277760000 * (t ^ 7 * s ^ 5) +
        165437968364611 / 1099511627776000 * (t ^ 8 * s ^ 4) +
        1131049991015331 / 17592186044416000 * (t ^ 9 * s ^ 3) +
        1641849242380309 / 87960930222080000 * (t ^ 10 * s ^ 2) +
        1177687803564827 / 351843720888320000 * (t ^ 11 * s) +
        49350511468873 / 175921860444160000 * (t ^ 12) := by
    rw [tanhG, tanhG', hv, hst]; ring
  have a0 : 0 ≤ 3 / 10000 + (tanhG' v + 10 * tanhG v) := by rw [a]; positivity
  have b0 : 0 ≤ 3 / 10000 - (tanhG' v + 10 * tanhG v) := by rw [b]; positivity
  rw [abs_le]
  constructor <;> linarith

theorem tanhG_ode_3 (v : ℝ) (h0 : 3 / 4 ≤ v) (h1 : v ≤ 1) : |tanhG' v + 10 * tanhG v| ≤ 3 / 10000 := by
  obtain ⟨t, ht, hv⟩ : ∃ t : ℝ, 0 ≤ t ∧ v = 3 / 4 + t * (1 / 4) := ⟨(v - (3 / 4)) * (4), mul_nonneg (by linarith) (by norm_num), by ring⟩
  obtain ⟨s, hs, hst⟩ : ∃ s : ℝ, 0 ≤ s ∧ s = 1 - t := ⟨1 - t, by linarith, rfl⟩
  have a : 3 / 10000 + (tanhG' v + 10 * tanhG v) = 56202604797623 / 175921860444160000 * (s ^ 12) +
        1342138043454827 / 351843720888320000 * (t * s ^ 11) +
        3608838000258743 / 175921860444160000 * (t ^ 2 * s ^ 10) +
        144337175006057 / 2199023255552000 * (t ^ 3 * s ^ 9) +
        154499301617111 / 1099511627776000 * (t ^ 4 * s ^ 8) +
        299517452715097 / 1374389534720000 * (t ^ 5 * s ^ 7) +
        179766311702817 / 687194767360000 * (t ^ 6 * s ^ 6) +
        10726329395921 / 42949672960000 * (t ^ 7 * s ^ 5) +
        770550611581 / 4294967296000 * (t ^ 8 * s ^ 4) +
        90002393509 / 1073741824000 * (t ^ 9 * s ^ 3) +
        52970034663 / 2684354560000 * (t ^ 10 * s ^ 2) +
        130746763 / 83886080000 * (t ^ 11 * s) +
        72001023 / 167772160000 * (t ^ 12) := by
    rw [tanhG, tanhG', hv, hst]; ring
  have b : 3 / 10000 - (tanhG' v + 10 * tanhG v) = 49350511468873 / 175921860444160000 * (s ^ 12) +
        1191136746941077 / 351843720888320000 * (t * s ^ 11) +
        3357667673329993 / 175921860444160000 * (t ^ 2 * s ^ 10) +
        145933894726807 / 2199023255552000 * (t ^ 3 * s ^ 9) +
        172055651832361 / 1099511627776000 * (t ^ 4 * s ^ 8) +
        353592454183847 / 1374389534720000 * (t ^ 5 * s ^ 7) +
        201214467321567 / 687194767360000 * (t ^ 6 * s ^ 6) +
        9683355194671 / 42949672960000 * (t ^ 7 * s ^ 5) +
        505054675331 / 4294967296000 * (t ^ 8 * s ^ 4) +
        51731527259 / 1073741824000 * (t ^ 9 * s ^ 3) +
        53330405913 / 2684354560000 * (t ^ 10 * s ^ 2) +
        473233013 / 83886080000 * (t ^ 11 * s) +
        28662273 / 167772160000 * (t ^ 12) := by
    rw [tanhG, tanhG', hv, hst]; ring
  have a0 : 0 ≤ 3 / 10000 + (tanhG' v + 10 * tanhG v) := by rw [a]; positivity
  have b0 : 0 ≤ 3 / 10000 - (tanhG' v + 10 * tanhG v) := by rw [b]; positivity
  rw [abs_le]
  constructor <;> linarith

/-- the differential equation -/
theorem tanhG_ode (v : ℝ) (h0 : 0 ≤ v) (h1 : v ≤ 1) : |tanhG' v + 10 * tanhG v| ≤ 3 / 10000 := by
  rcases le_total v (1 / 4) with g0 | g0
  · exact tanhG_ode_0 v h0 g0
  rcases le_total v (1 / 2) with g1 | g1
  · exact tanhG_ode_1 v g0 g1
  rcases le_total v (3 / 4) with g2 | g2
  · exact tanhG_ode_2 v g1 g2
  exact tanhG_ode_3 v g2 h1

theorem tanhPG_0 (v : ℝ) (h0 : 0 ≤ v) (h1 : v ≤ 1 / 6) : |(tanhP v - 1) + (tanhP v + 1) * tanhG v| ≤ 99 / 20000 * (1 + tanhG v) := by
  obtain ⟨t, ht, hv⟩ : ∃ t : ℝ, 0 ≤ t ∧ v = 0 + t * (1 / 6) := ⟨(v - (0)) * (6), mul_nonneg (by linarith) (by norm_num), by ring⟩
  obtain ⟨s, hs, hst⟩ : ∃ s : ℝ, 0 ≤ s ∧ s = 1 - t := ⟨1 - t, by linarith, rfl⟩
  have a : 99 / 20000 * (1 + tanhG v) + ((tanhP v - 1) + (tanhP v + 1) * tanhG v) = 99 / 10000 * (s ^ 29) +
        540664360267 / 2013265920000 * (t * s ^ 28) +
        8904888526661534513 / 2533274790395904000 * (t ^ 2 * s ^ 27) +
        4500840320495252932541 / 151996487423754240000 * (t ^ 3 * s ^ 26) +
        1318171879336660226682839 / 7295831396340203520000 * (t ^ 4 * s ^ 25) +
        29840027865402269693755 / 35019990702432976896 * (t ^ 5 * s ^ 24) +
        6801129613270939261522901327 / 2101199442145978613760000 * (t ^ 6 * s ^ 23) +
        42814148165912924542212871171 / 4202398884291957227520000 * (t ^ 7 * s ^ 22) +
        2051237976997563254412557706257 / 75643179917255230095360000 * (t ^ 8 * s ^ 21) +
        5623097180834445939795695375689 / 90771815900706276114432000 * (t ^ 9 * s ^ 20) +
        4457400058870534698825918811417 / 36308726360282510445772800 * (t ^ 10 * s ^ 19) +
        1157992338063372499368647556535459 / 5446308954042376566865920000 * (t ^ 11 * s ^ 18) +
        31699645399278308846735609998478707 / 98033561172762778203586560000 * (t ^ 12 * s ^ 17) +
        84881088907317833209604744588782307 / 196067122345525556407173120000 * (t ^ 13 * s ^ 16) +
        600723671829001920710873863647923869 / 1176402734073153338443038720000 * (t ^ 14 * s ^ 15) +
        124770205329298336134858232359873293 / 235280546814630667688607744000 * (t ^ 15 * s ^ 14) +
        15371816641852672287468683184398703851 / 31762873819975140137962045440000 * (t ^ 16 * s ^ 13) +
        12291032719827810732284431110157320187 / 31762873819975140137962045440000 * (t ^ 17 * s ^ 12) +
        8575801753380838202989835816518184809 / 31762873819975140137962045440000 * (t ^ 18 * s ^ 11) +
        140240895808373838253413271508717709283 / 857597593139328783724975226880000 * (t ^ 19 * s ^ 10) +
        43946365836747571822157216814765240191 / 514558555883597270234985136128000 * (t ^ 20 * s ^ 9) +
        58874606309360014638013735063350379567 / 1543675667650791810704955408384000 * (t ^ 21 * s ^ 8) +
        27796174486047653401639302238352990681 / 1929594584563489763381194260480000 * (t ^ 22 * s ^ 7) +
        39393203471273942662001799414621395197 / 8683175630535703935215374172160000 * (t ^ 23 * s ^ 6) +
        121781488180090415546114499447202853057 / 104198107566428447222584490065920000 * (t ^ 24 * s ^ 5) +
        4164283886489862264392145445764791443 / 17366351261071407870430748344320000 * (t ^ 25 * s ^ 4) +
        70642198384277958431390630354208467387 / 1875565936195712050006520821186560000 * (t ^ 26 * s ^ 3) +
        23922582421504875576878830920328801499 / 5626697808587136150019562463559680000 * (t ^ 27 * s ^ 2) +
        215896351222625021945243040315635119 / 703337226073392018752445307944960000 * (t ^ 28 * s) +
        269493538254771811496953844563693439 / 25320140138642112675088031086018560000 * (t ^ 29) := by
    rw [tanhP, tanhG, hv, hst]; ring
  have b : 99 / 20000 * (1 + tanhG v) - ((tanhP v - 1) + (tanhP v + 1) * tanhG v) = 99 / 10000 * (s ^ 29) +
        582134840267 / 2013265920000 * (t * s ^ 28) +
        10324079019151277263 / 2533274790395904000 * (t ^ 2 * s ^ 27) +
        5603258976084718516291 / 151996487423754240000 * (t ^ 3 * s ^ 26) +
        1752256453453972008194089 / 7295831396340203520000 * (t ^ 4 * s ^ 25) +
        41997431069853333129413 / 35019990702432976896 * (t ^ 5 * s ^ 24) +
        10021407806005937406006822577 / 2101199442145978613760000 * (t ^ 6 * s ^ 23) +
        65145926418887848431646567421 / 4202398884291957227520000 * (t ^ 7 * s ^ 22) +
        3172199423376966626027581185007 / 75643179917255230095360000 * (t ^ 8 * s ^ 21) +
        8684664431117799724029991840439 / 90771815900706276114432000 * (t ^ 9 * s ^ 20) +
        6749381569890341141657844609767 / 36308726360282510445772800 * (t ^ 10 * s ^ 19) +
        1687167103785981124673243551951709 / 5446308954042376566865920000 * (t ^ 11 * s ^ 18) +
        43634212938327128385816132527714957 / 98033561172762778203586560000 * (t ^ 12 * s ^ 17) +
        108486488662197643193020792592438557 / 196067122345525556407173120000 * (t ^ 13 * s ^ 16) +
        701585991833416523719533265863307619 / 1176402734073153338443038720000 * (t ^ 14 * s ^ 15) +
        131237170001639190599933556769101043 / 235280546814630667688607744000 * (t ^ 15 * s ^ 14) +
        14373215363507370522189562392310670101 / 31762873819975140137962045440000 * (t ^ 16 * s ^ 13) +
        10097824355131896594849902896773906437 / 31762873819975140137962045440000 * (t ^ 17 * s ^ 12) +
        6125558607105582093231599623112593559 / 31762873819975140137962045440000 * (t ^ 18 * s ^ 11) +
        86255801953093596564658352780233365533 / 857597593139328783724975226880000 * (t ^ 19 * s ^ 10) +
        23066793368101870765826013128761741441 / 514558555883597270234985136128000 * (t ^ 20 * s ^ 9) +
        26150622271459498331167554382064548817 / 1543675667650791810704955408384000 * (t ^ 21 * s ^ 8) +
        10365332525133284095891866086977019431 / 1929594584563489763381194260480000 * (t ^ 22 * s ^ 7) +
        12243283851063631758375193983474738947 / 8683175630535703935215374172160000 * (t ^ 23 * s ^ 6) +
        31350344684365228780321806328750591807 / 104198107566428447222584490065920000 * (t ^ 24 * s ^ 5) +
        884211494447490211035248915135267693 / 17366351261071407870430748344320000 * (t ^ 25 * s ^ 4) +
        12364197250822901754568127551229613637 / 1875565936195712050006520821186560000 * (t ^ 26 * s ^ 3) +
        3470591572588328914269130102372307749 / 5626697808587136150019562463559680000 * (t ^ 27 * s ^ 2) +
        26363149954243193842368890321996369 / 703337226073392018752445307944960000 * (t ^ 28 * s) +
        28521367561219671945445300827074689 / 25320140138642112675088031086018560000 * (t ^ 29) := by
    rw [tanhP, tanhG, hv, hst]; ring
  have a0 : 0 ≤ 99 / 20000 * (1 + tanhG v) + ((tanhP v - 1) + (tanhP v + 1) * tanhG v) := by rw [a]; positivity
  have b0 : 0 ≤ 99 / 20000 * (1 + tanhG v) - ((tanhP v - 1) + (tanhP v + 1) * tanhG v) := by rw [b]; positivity
  rw [abs_le]
  constructor <;> linarith

theorem tanhPG_1 (v : ℝ) (h0 : 1 / 6 ≤ v) (h1 : v ≤ 1 / 3) : |(tanhP v - 1) + (tanhP v + 1) * tanhG v| ≤ 99 / 20000 * (1 + tanhG v) := by
  obtain ⟨t, ht, hv⟩ : ∃ t : ℝ, 0 ≤ t ∧ v = 1 / 6 + t * (1 / 6) := ⟨(v - (1 / 6)) * (6), mul_nonneg (by linarith) (by norm_num), by ring⟩
  obtain ⟨s, hs, hst⟩ : ∃ s : ℝ, 0 ≤ s ∧ s = 1 - t := ⟨1 - t, by linarith, rfl⟩
  have a : 99 / 20000 * (1 + tanhG v) + ((tanhP v - 1) + (tanhP v + 1) * tanhG v) = 269493538254771811496953844563693439 / 25320140138642112675088031086018560000 * (s ^ 29) +
        3929178287381132138397286766665677589 / 12660070069321056337544015543009280000 * (t * s ^ 28) +
        44024833183083727090159125374638940711 / 10128056055456845070035212434407424000 * (t ^ 2 * s ^ 27) +
        43808123144510965578367467452592011821 / 1125339561717427230003912492711936000 * (t ^ 3 * s ^ 26) +
        352212121716679126117829215572592691603 / 1406674452146784037504890615889920000 * (t ^ 4 * s ^ 25) +
        3464899732537489359529190501726457535171 / 2813348904293568075009781231779840000 * (t ^ 5 * s ^ 24) +
        3387854235967168107775395722662371263069 / 703337226073392018752445307944960000 * (t ^ 6 * s ^ 23) +
        21629534456088611846151127814389132918267 / 1406674452146784037504890615889920000 * (t ^ 7 * s ^ 22) +
        229615861331588695605729947157704227309987 / 5626697808587136150019562463559680000 * (t ^ 8 * s ^ 21) +
        1540345160934873780262681166834780462318063 / 16880093425761408450058687390679040000 * (t ^ 9 * s ^ 20) +
        2930628442665476916931079654369582423276057 / 16880093425761408450058687390679040000 * (t ^ 10 * s ^ 19) +
        4777980715693997250689467454234777616129701 / 16880093425761408450058687390679040000 * (t ^ 11 * s ^ 18) +
        2236318642753384063331513014875628757938817 / 5626697808587136150019562463559680000 * (t ^ 12 * s ^ 17) +
        108534006833372653046671544168752684995629 / 225067912343485446000782498542387200 * (t ^ 13 * s ^ 16) +
        2849822877434476054117596482139334216317689 / 5626697808587136150019562463559680000 * (t ^ 14 * s ^ 15) +
        518408335188288876343953656255325691215749 / 1125339561717427230003912492711936000 * (t ^ 15 * s ^ 14) +
        1019832339498462217448873383499775406809437 / 2813348904293568075009781231779840000 * (t ^ 16 * s ^ 13) +
        346320655414613397835009159602261997929427 / 1406674452146784037504890615889920000 * (t ^ 17 * s ^ 12) +
        303331764529552941711120754267504682758523 / 2110011678220176056257335923834880000 * (t ^ 18 * s ^ 11) +
        75709559326670100959559434448392086157293 / 1055005839110088028128667961917440000 * (t ^ 19 * s ^ 10) +
        16030020215116301319198267868662527120939 / 527502919555044014064333980958720000 * (t ^ 20 * s ^ 9) +
        189965817047847168101059907709047381413 / 17583430651834800468811132698624000 * (t ^ 21 * s ^ 8) +
        139812930668236003627919919496298377729 / 43958576629587001172027831746560000 * (t ^ 22 * s ^ 7) +
        16731703178786100146980688031992285609 / 21979288314793500586013915873280000 * (t ^ 23 * s ^ 6) +
        793986706542014663301037977363185101 / 5494822078698375146503478968320000 * (t ^ 24 * s ^ 5) +
        23101172163492337964356119241473377 / 1098964415739675029300695793664000 * (t ^ 25 * s ^ 4) +
        306791357858560421313239920687171 / 137370551967459378662586974208000 * (t ^ 26 * s ^ 3) +
        1998228141711146108360704479386867 / 12363349677071344079632827678720000 * (t ^ 27 * s ^ 2) +
        2775214237207283481770825321143 / 386354677408479502488525864960000 * (t ^ 28 * s) +
        497637046709837793419271252983 / 3090837419267836019908206919680000 * (t ^ 29) := by
    rw [tanhP, tanhG, hv, hst]; ring
  have b : 99 / 20000 * (1 + tanhG v) - ((tanhP v - 1) + (tanhP v + 1) * tanhG v) = 28521367561219671945445300827074689 / 25320140138642112675088031086018560000 * (s ^ 29) +
        352582960098992997255273698189231339 / 12660070069321056337544015543009280000 * (t * s ^ 28) +
        3515301075325579426959428445879999961 / 10128056055456845070035212434407424000 * (t ^ 2 * s ^ 27) +
        3341098999691674469429443942444975571 / 1125339561717427230003912492711936000 * (t ^ 3 * s ^ 26) +
        27887324197515453244796289504120927853 / 1406674452146784037504890615889920000 * (t ^ 4 * s ^ 25) +
        307981097734712479062430857857631151421 / 2813348904293568075009781231779840000 * (t ^ 5 * s ^ 24) +
        358570983783669167125476766779620326819 / 703337226073392018752445307944960000 * (t ^ 6 * s ^ 23) +
        2826209875269275760163265142152187904517 / 1406674452146784037504890615889920000 * (t ^ 7 * s ^ 22) +
        37703158741078053834827383399564349126237 / 5626697808587136150019562463559680000 * (t ^ 8 * s ^ 21) +
        319723499965379280909215902541401617399313 / 16880093425761408450058687390679040000 * (t ^ 9 * s ^ 20) +
        768485015913581489532902800802670733624807 / 16880093425761408450058687390679040000 * (t ^ 10 * s ^ 19) +
        1577200949413230407074373889470146283823451 / 16880093425761408450058687390679040000 * (t ^ 11 * s ^ 18) +
        925169095205083322923497977070751151197567 / 5626697808587136150019562463559680000 * (t ^ 12 * s ^ 17) +
        56042714474351318921760297191760134400979 / 225067912343485446000782498542387200 * (t ^ 13 * s ^ 16) +
        1831013817045155008986798277145434187826439 / 5626697808587136150019562463559680000 * (t ^ 14 * s ^ 15) +
        413734865741643417684771394090497081573499 / 1125339561717427230003912492711936000 * (t ^ 15 * s ^ 14) +
        1010935953098137976822047380153400572993187 / 2813348904293568075009781231779840000 * (t ^ 16 * s ^ 13) +
        427160555565233936009006433398029067205677 / 1406674452146784037504890615889920000 * (t ^ 17 * s ^ 12) +
        467332136550901439549445134893198271024773 / 2110011678220176056257335923834880000 * (t ^ 18 * s ^ 11) +
        146608573581353458605125249918523361921043 / 1055005839110088028128667961917440000 * (t ^ 19 * s ^ 10) +
        39368311332176528240392002983328185887189 / 527502919555044014064333980958720000 * (t ^ 20 * s ^ 9) +
        598998099393060792840117645959098819163 / 17583430651834800468811132698624000 * (t ^ 21 * s ^ 8) +
        575334476926638127801751670440180436479 / 43958576629587001172027831746560000 * (t ^ 22 * s ^ 7) +
        91794753169813709186463848805734774359 / 21979288314793500586013915873280000 * (t ^ 23 * s ^ 6) +
        5971211583236841978156681845469708851 / 5494822078698375146503478968320000 * (t ^ 24 * s ^ 5) +
        246838650377790097909129049809044127 / 1098964415739675029300695793664000 * (t ^ 25 * s ^ 4) +
        4872236857460223123483349606975421 / 137370551967459378662586974208000 * (t ^ 26 * s ^ 3) +
        49677668231740840890643195994383117 / 12363349677071344079632827678720000 * (t ^ 27 * s ^ 2) +
        112331814079111696860300298712393 / 386354677408479502488525864960000 * (t ^ 28 * s) +
        31193289550509410725715322164233 / 3090837419267836019908206919680000 * (t ^ 29) := by
    rw [tanhP, tanhG, hv, hst]; ring
  have a0 : 0 ≤ 99 / 20000 * (1 + tanhG v) + ((tanhP v - 1) + (tanhP v + 1) * tanhG v) := by rw [a]; positivity
  have b0 : 0 ≤ 99 / 20000 * (1 + tanhG v) - ((tanhP v - 1) + (tanhP v + 1) * tanhG v) := by rw [b]; positivity
  rw [abs_le]
  constructor <;> linarith

theorem tanhPG_2 (v : ℝ) (h0 : 1 / 3 ≤ v) (h1 : v ≤ 1 / 2) : |(tanhP v - 1) + (tanhP v + 1) * tanhG v| ≤ 99 / 20000 * (1 + tanhG v) := by
  obtain ⟨t, ht, hv⟩ : ∃ t : ℝ, 0 ≤ t ∧ v = 1 / 3 + t * (1 / 6) := ⟨(v - (1 / 3)) * (6), mul_nonneg (by linarith) (by norm_num), by ring⟩
  obtain ⟨s, hs, hst⟩ : ∃ s : ℝ, 0 ≤ s ∧ s = 1 - t := ⟨1 - t, by linarith, rfl⟩
  have a : 99 / 20000 * (1 + tanhG v) + ((tanhP v - 1) + (tanhP v + 1) * tanhG v) = 497637046709837793419271252983 / 3090837419267836019908206919680000 * (s ^ 29) +
        222041160383744138805037670129 / 103027913975594533996940230656000 * (t * s ^ 28) +
        3181413383491363149123105719459 / 152633946630510420736207749120000 * (t ^ 2 * s ^ 27) +
        7786734055152150852250714362331 / 22895091994576563110431162368000 * (t ^ 3 * s ^ 26) +
        2894174393792913897261751065462893 / 610535786522041682944830996480000 * (t ^ 4 * s ^ 25) +
        993442350328653524600258059172383 / 22612436537853395664623370240000 * (t ^ 5 * s ^ 24) +
        8625727646929247397651160192014673 / 30149915383804527552831160320000 * (t ^ 6 * s ^ 23) +
        9345851560733753229247910725637467 / 6699981196401006122851368960000 * (t ^ 7 * s ^ 22) +
        642126137190646032242058590223622937 / 120599661535218110211324641280000 * (t ^ 8 * s ^ 21) +
        1318902659043763373089801382943931201 / 80399774356812073474216427520000 * (t ^ 9 * s ^ 20) +
        2233784624878233040758276835780554559 / 53599849571208048982810951680000 * (t ^ 10 * s ^ 19) +
        1055894411834731991800121533481928563 / 11911077682490677551735767040000 * (t ^ 11 * s ^ 18) +
        3802829277908948709913715375671731107 / 23822155364981355103471534080000 * (t ^ 12 * s ^ 17) +
        779124873138497149542373022820511177 / 3176287381997514013796204544000 * (t ^ 13 * s ^ 16) +
        3424099332532742708251170725784191593 / 10587624606658380045987348480000 * (t ^ 14 * s ^ 15) +
        47990842243177202785966751679712501 / 130711414897017037604782080000 * (t ^ 15 * s ^ 14) +
        422988816075003351886976567400027989 / 1176402734073153338443038720000 * (t ^ 16 * s ^ 13) +
        23828980910859737790109174038470363 / 78426848938210222562869248000 * (t ^ 17 * s ^ 12) +
        28919871059893192771110926001454823 / 130711414897017037604782080000 * (t ^ 18 * s ^ 11) +
        402093597591576836949880122876059 / 2904698108822600835661824000 * (t ^ 19 * s ^ 10) +
        1075667524464710334559332090005141 / 14523490544113004178309120000 * (t ^ 20 * s ^ 9) +
        162919683801980912000093109603481 / 4841163514704334726103040000 * (t ^ 21 * s ^ 8) +
        5188758372986440349485065576827 / 403430292892027893841920000 * (t ^ 22 * s ^ 7) +
        45722849644129432987238141411 / 11206397024778552606720000 * (t ^ 23 * s ^ 6) +
        31520832066594439521006335473 / 29883725399409473617920000 * (t ^ 24 * s ^ 5) +
        808675948389987614570391527 / 3735465674926184202240000 * (t ^ 25 * s ^ 4) +
        9011999464276449427707347 / 265633114661417543270400 * (t ^ 26 * s ^ 3) +
        1687797498739513305643207 / 442721857769029238784000 * (t ^ 27 * s ^ 2) +
        151332986285550147962869 / 553402322211286548480000 * (t ^ 28 * s) +
        3469505786863780015521 / 368934881474191032320000 * (t ^ 29) := by
    rw [tanhP, tanhG, hv, hst]; ring
  have b : 99 / 20000 * (1 + tanhG v) - ((tanhP v - 1) + (tanhP v + 1) * tanhG v) = 31193289550509410725715322164233 / 3090837419267836019908206919680000 * (s ^ 29) +
        30351876043221741573636209860879 / 103027913975594533996940230656000 * (t * s ^ 28) +
        629761312618293977669528314575709 / 152633946630510420736207749120000 * (t ^ 2 * s ^ 27) +
        845183769445943265609078992940581 / 22895091994576563110431162368000 * (t ^ 3 * s ^ 26) +
        144709093341949267029155603907786643 / 610535786522041682944830996480000 * (t ^ 4 * s ^ 25) +
        26297815444033352618872797180593633 / 22612436537853395664623370240000 * (t ^ 5 * s ^ 24) +
        136713439684343430239886306640373423 / 30149915383804527552831160320000 * (t ^ 6 * s ^ 23) +
        96627606688504278960726751239383717 / 6699981196401006122851368960000 * (t ^ 7 * s ^ 22) +
        4596701203360199607806957443625491687 / 120599661535218110211324641280000 * (t ^ 8 * s ^ 21) +
        6820339923140236848210459714628469951 / 80399774356812073474216427520000 * (t ^ 9 * s ^ 20) +
        8605928993051678996189238902661615809 / 53599849571208048982810951680000 * (t ^ 10 * s ^ 19) +
        3100245865093294664871987852447004813 / 11911077682490677551735767040000 * (t ^ 11 * s ^ 18) +
        8652713579899216871274334636054027357 / 23822155364981355103471534080000 * (t ^ 12 * s ^ 17) +
        1390495793518542213374377178428559927 / 3176287381997514013796204544000 * (t ^ 13 * s ^ 16) +
        4833531918583943109527983313280040343 / 10587624606658380045987348480000 * (t ^ 14 * s ^ 15) +
        53866932909647485640048184302826251 / 130711414897017037604782080000 * (t ^ 15 * s ^ 14) +
        378485999040173110442334264440301739 / 1176402734073153338443038720000 * (t ^ 16 * s ^ 13) +
        16999042107674602363632674335416613 / 78426848938210222562869248000 * (t ^ 17 * s ^ 12) +
        16411633769571748401887451512226073 / 130711414897017037604782080000 * (t ^ 18 * s ^ 11) +
        180718951090579232286740552638309 / 2904698108822600835661824000 * (t ^ 19 * s ^ 10) +
        380421556689814763958182992918891 / 14523490544113004178309120000 * (t ^ 20 * s ^ 9) +
        44966116541959306825302622352231 / 4841163514704334726103040000 * (t ^ 21 * s ^ 8) +
        1107184307080752499069961363077 / 403430292892027893841920000 * (t ^ 22 * s ^ 7) +
        7474799617398233785090437661 / 11206397024778552606720000 * (t ^ 23 * s ^ 6) +
        3926082219980602243644574223 / 29883725399409473617920000 * (t ^ 24 * s ^ 5) +
        77068030772148912937162777 / 3735465674926184202240000 * (t ^ 25 * s ^ 4) +
        673764318273761778084397 / 265633114661417543270400 * (t ^ 26 * s ^ 3) +
        105088938930040907974457 / 442721857769029238784000 * (t ^ 27 * s ^ 2) +
        8680983922476522436619 / 553402322211286548480000 * (t ^ 28 * s) +
        207562174385145074271 / 368934881474191032320000 * (t ^ 29) := by
    rw [tanhP, tanhG, hv, hst]; ring
  have a0 : 0 ≤ 99 / 20000 * (1 + tanhG v) + ((tanhP v - 1) + (tanhP v + 1) * tanhG v) := by rw [a]; positivity
  have b0 : 0 ≤ 99 / 20000 * (1 + tanhG v) - ((tanhP v - 1) + (tanhP v + 1) * tanhG v) := by rw [b]; positivity
  rw [abs_le]
  constructor <;> linarith

theorem tanhPG_3 (v : ℝ) (h0 : 1 / 2 ≤ v) (h1 : v ≤ 2 / 3) : |(tanhP v - 1) + (tanhP v + 1) * tanhG v| ≤ 99 / 20000 * (1 + tanhG v) := by
  obtain ⟨t, ht, hv⟩ : ∃ t : ℝ, 0 ≤ t ∧ v = 1 / 2 + t * (1 / 6) := ⟨(v - (1 / 2)) * (6), mul_nonneg (by linarith) (by norm_num), by ring⟩
  obtain ⟨s, hs, hst⟩ : ∃ s : ℝ, 0 ≤ s ∧ s = 1 - t := ⟨1 - t, by linarith, rfl⟩
  have a : 99 / 20000 * (1 + tanhG v) + ((tanhP v - 1) + (tanhP v + 1) * tanhG v) = 3469505786863780015521 / 368934881474191032320000 * (s ^ 29) +
        75257008585799356693729 / 276701161105643274240000 * (t * s ^ 28) +
        2782420984311668618590001 / 737869762948382064640000 * (t ^ 2 * s ^ 27) +
        44320192223181794137359311 / 1328165573307087716352000 * (t ^ 3 * s ^ 26) +
        790797428617695634391419283 / 3735465674926184202240000 * (t ^ 4 * s ^ 25) +
        30638560303804049612423427637 / 29883725399409473617920000 * (t ^ 5 * s ^ 24) +
        44163148278357174453520090967 / 11206397024778552606720000 * (t ^ 6 * s ^ 23) +
        4978523390870541811922970161677 / 403430292892027893841920000 * (t ^ 7 * s ^ 22) +
        155223590680124979595069405874857 / 4841163514704334726103040000 * (t ^ 8 * s ^ 21) +
        1017269432534796935594379759783337 / 14523490544113004178309120000 * (t ^ 9 * s ^ 20) +
        1886507587470596221255043330883671 / 14523490544113004178309120000 * (t ^ 10 * s ^ 19) +
        26916286847223723011465527571698891 / 130711414897017037604782080000 * (t ^ 11 * s ^ 18) +
        109967504277728903496034378798690303 / 392134244691051112814346240000 * (t ^ 12 * s ^ 17) +
        77436386614252151476487041170320237 / 235280546814630667688607744000 * (t ^ 13 * s ^ 16) +
        392298418978559980648071354596094941 / 1176402734073153338443038720000 * (t ^ 14 * s ^ 15) +
        3090128497794639550444839418475329229 / 10587624606658380045987348480000 * (t ^ 15 * s ^ 14) +
        700541260302735889015657894884101293 / 3176287381997514013796204544000 * (t ^ 16 * s ^ 13) +
        684771112643701917640209119012650007 / 4764431072996271020694306816000 * (t ^ 17 * s ^ 12) +
        960465516232117293381946577564527463 / 11911077682490677551735767040000 * (t ^ 18 * s ^ 11) +
        2084743238884683659613130862963071859 / 53599849571208048982810951680000 * (t ^ 19 * s ^ 10) +
        1296511474597076492623906133157547177 / 80399774356812073474216427520000 * (t ^ 20 * s ^ 9) +
        694694638476006618082997083853988469 / 120599661535218110211324641280000 * (t ^ 21 * s ^ 8) +
        107535308616284686075485634176001367 / 60299830767609055105662320640000 * (t ^ 22 * s ^ 7) +
        4847862295585552275655682407898309 / 10049971794601509184277053440000 * (t ^ 23 * s ^ 6) +
        161619087157343623906400488823179 / 1413277283615837229038960640000 * (t ^ 24 * s ^ 5) +
        3573504975998473312338105648484111 / 152633946630510420736207749120000 * (t ^ 25 * s ^ 4) +
        45294944750424241707093847873301 / 11447545997288281555215581184000 * (t ^ 26 * s ^ 3) +
        4848143047093905681093402505781 / 9539621664406901296012984320000 * (t ^ 27 * s ^ 2) +
        694795947919765961633058285539 / 16098111558686645937021911040000 * (t ^ 28 * s) +
        86289441896805229335737902729 / 48294334676059937811065733120000 * (t ^ 29) := by
    rw [tanhP, tanhG, hv, hst]; ring
  have b : 99 / 20000 * (1 + tanhG v) - ((tanhP v - 1) + (tanhP v + 1) * tanhG v) = 207562174385145074271 / 368934881474191032320000 * (s ^ 29) +
        4688462624515549512479 / 276701161105643274240000 * (t * s ^ 28) +
        201130041074772372588751 / 737869762948382064640000 * (t ^ 2 * s ^ 27) +
        3996878991270632503360561 / 1328165573307087716352000 * (t ^ 3 * s ^ 26) +
        92216027031767060437415533 / 3735465674926184202240000 * (t ^ 4 * s ^ 25) +
        4671326880689929860043901387 / 29883725399409473617920000 * (t ^ 5 * s ^ 24) +
        8786647940995618336038402217 / 11206397024778552606720000 * (t ^ 6 * s ^ 23) +
        1283007307854657928669804285427 / 403430292892027893841920000 * (t ^ 7 * s ^ 22) +
        51354929200748567504845137163607 / 4841163514704334726103040000 * (t ^ 8 * s ^ 21) +
        428437560702105368763603036992087 / 14523490544113004178309120000 * (t ^ 9 * s ^ 20) +
        1004261130829557387679681077034921 / 14523490544113004178309120000 * (t ^ 10 * s ^ 19) +
        18012580360860564124722449606585141 / 130711414897017037604782080000 * (t ^ 11 * s ^ 18) +
        92172360107064652362625302866071553 / 392134244691051112814346240000 * (t ^ 12 * s ^ 17) +
        81136068439951204078957694356771987 / 235280546814630667688607744000 * (t ^ 13 * s ^ 16) +
        513670582344936035383681588951878691 / 1176402734073153338443038720000 * (t ^ 14 * s ^ 15) +
        5062241490238946545413279966136092979 / 10587624606658380045987348480000 * (t ^ 15 * s ^ 14) +
        1439121652622872613926162034358793043 / 3176287381997514013796204544000 * (t ^ 16 * s ^ 13) +
        1769186796712028833835821820544353257 / 4764431072996271020694306816000 * (t ^ 17 * s ^ 12) +
        3128896697399232118089214126910018713 / 11911077682490677551735767040000 * (t ^ 18 * s ^ 11) +
        8567727327377058478502369104804308109 / 53599849571208048982810951680000 * (t ^ 19 * s ^ 10) +
        6691855604434242563838102422828675927 / 80399774356812073474216427520000 * (t ^ 20 * s ^ 9) +
        4440086597168640213554284899668942219 / 120599661535218110211324641280000 * (t ^ 21 * s ^ 8) +
        825958812731008911470934717549992617 / 60299830767609055105662320640000 * (t ^ 22 * s ^ 7) +
        42498386666880227632330296822752059 / 10049971794601509184277053440000 * (t ^ 23 * s ^ 6) +
        1502734918473876281839715734349429 / 1413277283615837229038960640000 * (t ^ 24 * s ^ 5) +
        32373229204768029563860106633605361 / 152633946630510420736207749120000 * (t ^ 25 * s ^ 4) +
        369439007634891856064404868131051 / 11447545997288281555215581184000 * (t ^ 26 * s ^ 3) +
        33549998745493965959482832899531 / 9539621664406901296012984320000 * (t ^ 27 * s ^ 2) +
        3933193211006470766333417461789 / 16098111558686645937021911040000 * (t ^ 28 * s) +
        392433079468668968757412911479 / 48294334676059937811065733120000 * (t ^ 29) := by
    rw [tanhP, tanhG, hv, hst]; ring
  have a0 : 0 ≤ 99 / 20000 * (1 + tanhG v) + ((tanhP v - 1) + (tanhP v + 1) * tanhG v) := by rw [a]; positivity
  have b0 : 0 ≤ 99 / 20000 * (1 + tanhG v) - ((tanhP v - 1) + (tanhP v + 1) * tanhG v) := by rw [b]; positivity
  rw [abs_le]
  constructor <;> linarith

theorem tanhPG_4 (v : ℝ) (h0 : 2 / 3 ≤ v) (h1 : v ≤ 5 / 6) : |(tanhP v - 1) + (tanhP v + 1) * tanhG v| ≤ 99 / 20000 * (1 + tanhG v) := by
  obtain ⟨t, ht, hv⟩ : ∃ t : ℝ, 0 ≤ t ∧ v = 2 / 3 + t * (1 / 6) := ⟨(v - (2 / 3)) * (6), mul_nonneg (by linarith) (by norm_num), by ring⟩
  obtain ⟨s, hs, hst⟩ : ∃ s : ℝ, 0 ≤ s ∧ s = 1 - t := ⟨1 - t, by linarith, rfl⟩
  have a : 99 / 20000 * (1 + tanhG v) + ((tanhP v - 1) + (tanhP v + 1) * tanhG v) = 86289441896805229335737902729 / 48294334676059937811065733120000 * (s ^ 29) +
        584079957251081083314724700333 / 9658866935211987562213146624000 * (t * s ^ 28) +
        153446587410572506871743719189953 / 154541870963391800995410345984000 * (t ^ 2 * s ^ 27) +
        1795881255455275583437670146387969 / 171713189959324223328233717760000 * (t ^ 3 * s ^ 26) +
        108578744598245378576841890840049767 / 1373705519674593786625869742080000 * (t ^ 4 * s ^ 25) +
        312718921961489351532584471194783261 / 686852759837296893312934871040000 * (t ^ 5 * s ^ 24) +
        45627125625369375633897406490971998199 / 21979288314793500586013915873280000 * (t ^ 6 * s ^ 23) +
        337936972647541952196570589679227521029 / 43958576629587001172027831746560000 * (t ^ 7 * s ^ 22) +
        2070785611108751733169803431917304739637 / 87917153259174002344055663493120000 * (t ^ 8 * s ^ 21) +
        6385646379907870325240261928519008833847 / 105500583911008802812866796191744000 * (t ^ 9 * s ^ 20) +
        27809354774881640869276033428668646805813 / 211001167822017605625733592383488000 * (t ^ 10 * s ^ 19) +
        517068477070515458634658095990354976133263 / 2110011678220176056257335923834880000 * (t ^ 11 * s ^ 18) +
        550386047163888144246434203013365125183299 / 1406674452146784037504890615889920000 * (t ^ 12 * s ^ 17) +
        60609954399458295876954175677306128019913 / 112533956171742723000391249271193600 * (t ^ 13 * s ^ 16) +
        721100330665781312363366865230989054285657 / 1125339561717427230003912492711936000 * (t ^ 14 * s ^ 15) +
        3711897792746694693203998057211535981315313 / 5626697808587136150019562463559680000 * (t ^ 15 * s ^ 14) +
        661300309403794646862436097684972081732909 / 1125339561717427230003912492711936000 * (t ^ 16 * s ^ 13) +
        2545053082067303364968532940349645934391921 / 5626697808587136150019562463559680000 * (t ^ 17 * s ^ 12) +
        5064477266759411471466907993672020158078641 / 16880093425761408450058687390679040000 * (t ^ 18 * s ^ 11) +
        576582875900337270203784190285099734646781 / 3376018685152281690011737478135808000 * (t ^ 19 * s ^ 10) +
        1400101050226632659561298554548906488141787 / 16880093425761408450058687390679040000 * (t ^ 20 * s ^ 9) +
        191842913257405512465041820079728413569787 / 5626697808587136150019562463559680000 * (t ^ 21 * s ^ 8) +
        16511182659963852098054631573099309941213 / 1406674452146784037504890615889920000 * (t ^ 22 * s ^ 7) +
        2346934003784745735888533095112802534307 / 703337226073392018752445307944960000 * (t ^ 23 * s ^ 6) +
        432432639919827612412115206724677870579 / 562669780858713615001956246355968000 * (t ^ 24 * s ^ 5) +
        39286053038702849301584727888859312067 / 281334890429356807500978123177984000 * (t ^ 25 * s ^ 4) +
        108316724868118654390961513070014847601 / 5626697808587136150019562463559680000 * (t ^ 26 * s ^ 3) +
        3832649871911163439068764247804198251 / 2025611211091369014007042486881484800 * (t ^ 27 * s ^ 2) +
        748608120638038467179715802664714809 / 6330035034660528168772007771504640000 * (t ^ 28 * s) +
        89729710988218431161478403542206419 / 25320140138642112675088031086018560000 * (t ^ 29) := by
    rw [tanhP, tanhG, hv, hst]; ring
  have b : 99 / 20000 * (1 + tanhG v) - ((tanhP v - 1) + (tanhP v + 1) * tanhG v) = 392433079468668968757412911479 / 48294334676059937811065733120000 * (s ^ 29) +
        2192307795232677577785939296083 / 9658866935211987562213146624000 * (t * s ^ 28) +
        468421536822702461401300083888703 / 154541870963391800995410345984000 * (t ^ 2 * s ^ 27) +
        4422398106639974488996352100126719 / 171713189959324223328233717760000 * (t ^ 3 * s ^ 26) +
        214752126340107926121068370854021017 / 1373705519674593786625869742080000 * (t ^ 4 * s ^ 25) +
        495562030198026598026186937763607011 / 686852759837296893312934871040000 * (t ^ 5 * s ^ 24) +
        57827269663344121879801201002100029449 / 21979288314793500586013915873280000 * (t ^ 6 * s ^ 23) +
        341871776800283725187686483544555894779 / 43958576629587001172027831746560000 * (t ^ 7 * s ^ 22) +
        1667984361420569379932862627723401693387 / 87917153259174002344055663493120000 * (t ^ 8 * s ^ 21) +
        4082440058854263936210031990464924561097 / 105500583911008802812866796191744000 * (t ^ 9 * s ^ 20) +
        14061223207686410888999998433567787855563 / 211001167822017605625733592383488000 * (t ^ 10 * s ^ 19) +
        206121849419849810985642128945546107334513 / 2110011678220176056257335923834880000 * (t ^ 11 * s ^ 18) +
        172777208779033689764417778087185590159549 / 1406674452146784037504890615889920000 * (t ^ 12 * s ^ 17) +
        15041380486909983051550162925990061035063 / 112533956171742723000391249271193600 * (t ^ 13 * s ^ 16) +
        143457637886462526264461223427907053578407 / 1125339561717427230003912492711936000 * (t ^ 14 * s ^ 15) +
        610756765929075111053132293098066957794063 / 5626697808587136150019562463559680000 * (t ^ 15 * s ^ 14) +
        95141926459667321017641549658444917416659 / 1125339561717427230003912492711936000 * (t ^ 16 * s ^ 13) +
        347145636995452637970066597943477322550671 / 5626697808587136150019562463559680000 * (t ^ 17 * s ^ 12) +
        719768522592307198371466579215797827117391 / 16880093425761408450058687390679040000 * (t ^ 18 * s ^ 11) +
        93155339478689026540451798272030540054531 / 3376018685152281690011737478135808000 * (t ^ 19 * s ^ 10) +
        274205434190277015804808383436585070848037 / 16880093425761408450058687390679040000 * (t ^ 20 * s ^ 9) +
        47338463277966516826920861649916892876037 / 5626697808587136150019562463559680000 * (t ^ 21 * s ^ 8) +
        5232127220437743603901581812904538684963 / 1406674452146784037504890615889920000 * (t ^ 22 * s ^ 7) +
        961765673975611392531481381396841790557 / 703337226073392018752445307944960000 * (t ^ 23 * s ^ 6) +
        229295047895815686063113448037842082829 / 562669780858713615001956246355968000 * (t ^ 24 * s ^ 5) +
        26885559391578268385852044501960544317 / 281334890429356807500978123177984000 * (t ^ 25 * s ^ 4) +
        95284877008808104536103360260842366351 / 5626697808587136150019562463559680000 * (t ^ 26 * s ^ 3) +
        4311287322616110553784412159177278101 / 2025611211091369014007042486881484800 * (t ^ 27 * s ^ 2) +
        1069208262745169088546570594728623559 / 6330035034660528168772007771504640000 * (t ^ 28 * s) +
        161000101163392411792077383041562669 / 25320140138642112675088031086018560000 * (t ^ 29) := by
    rw [tanhP, tanhG, hv, hst]; ring
  have a0 : 0 ≤ 99 / 20000 * (1 + tanhG v) + ((tanhP v - 1) + (tanhP v + 1) * tanhG v) := by rw [a]; positivity
  have b0 : 0 ≤ 99 / 20000 * (1 + tanhG v) - ((tanhP v - 1) + (tanhP v + 1) * tanhG v) := by rw [b]; positivity
  rw [abs_le]
  constructor <;> linarith

theorem tanhPG_5 (v : ℝ) (h0 : 5 / 6 ≤ v) (h1 : v ≤ 1) : |(tanhP v - 1) + (tanhP v + 1) * tanhG v| ≤ 99 / 20000 * (1 + tanhG v) := by
  obtain ⟨t, ht, hv⟩ : ∃ t : ℝ, 0 ≤ t ∧ v = 5 / 6 + t * (1 / 6) := ⟨(v - (5 / 6)) * (6), mul_nonneg (by linarith) (by norm_num), by ring⟩
  obtain ⟨s, hs, hst⟩ : ∃ s : ℝ, 0 ≤ s ∧ s = 1 - t := ⟨1 - t, by linarith, rfl⟩
  have a : 99 / 20000 * (1 + tanhG v) + ((tanhP v - 1) + (tanhP v + 1) * tanhG v) = 89729710988218431161478403542206419 / 25320140138642112675088031086018560000 * (s ^ 29) +
        368315125794085856441147365798185511 / 4220023356440352112514671847669760000 * (t * s ^ 28) +
        384310444753120867353246528195549413 / 375113187239142410001304164237312000 * (t ^ 2 * s ^ 27) +
        14445214786833030134926264909803694859 / 1875565936195712050006520821186560000 * (t ^ 3 * s ^ 26) +
        6625158978743064260437370222995522951 / 156297161349642670833876735098880000 * (t ^ 4 * s ^ 25) +
        433122465312693462220298528898618161 / 2315513501476187716057433112576000 * (t ^ 5 * s ^ 24) +
        6177002944544562525750329348707729267 / 8683175630535703935215374172160000 * (t ^ 6 * s ^ 23) +
        14157851152094605864731534694802231437 / 5788783753690469290143582781440000 * (t ^ 7 * s ^ 22) +
        59411101961893457169344995456514313059 / 7718378338253959053524777041920000 * (t ^ 8 * s ^ 21) +
        11235462098103875662302026787966466163 / 514558555883597270234985136128000 * (t ^ 9 * s ^ 20) +
        9356515174013787662095421081670200591 / 171519518627865756744995045376000 * (t ^ 10 * s ^ 19) +
        33722046612708538017891830535993171317 / 285865864379776261241658408960000 * (t ^ 11 * s ^ 18) +
        20844631210457776367349255031692816049 / 95288621459925420413886136320000 * (t ^ 12 * s ^ 17) +
        11004937731508216175211269500038442279 / 31762873819975140137962045440000 * (t ^ 13 * s ^ 16) +
        4954800437638218701630576287423892801 / 10587624606658380045987348480000 * (t ^ 14 * s ^ 15) +
        380098799693268173229404388978057023 / 705841640443892003065823232000 * (t ^ 15 * s ^ 14) +
        34443483620032024104011429739870301 / 65355707448508518802391040000 * (t ^ 16 * s ^ 13) +
        4763419107733993233350665890803827 / 10892617908084753133731840000 * (t ^ 17 * s ^ 12) +
        5001167308905779557526814230956861 / 16338926862127129700597760000 * (t ^ 18 * s ^ 11) +
        488266578444773351354786111368351 / 2723154477021188283432960000 * (t ^ 19 * s ^ 10) +
        2628901515564143077819883582843 / 30257271966902092038144000 * (t ^ 20 * s ^ 9) +
        103600831642978119721174910101 / 3025727196690209203814400 * (t ^ 21 * s ^ 8) +
        134887270958364688109141298437 / 12607196652875871682560000 * (t ^ 22 * s ^ 7) +
        595091575130651163778062893 / 233466604682886512640000 * (t ^ 23 * s ^ 6) +
        75971009904763586734469713 / 175099953512164884480000 * (t ^ 24 * s ^ 5) +
        2745523633794809805170539 / 58366651170721628160000 * (t ^ 25 * s ^ 4) +
        6849615379888075696163 / 2431943798780067840000 * (t ^ 26 * s ^ 3) +
        434881911752790107213 / 1621295865853378560000 * (t ^ 27 * s ^ 2) +
        5019087825402436051 / 67553994410557440000 * (t ^ 28 * s) +
        348531874393149109 / 45035996273704960000 * (t ^ 29) := by
    rw [tanhP, tanhG, hv, hst]; ring
  have b : 99 / 20000 * (1 + tanhG v) - ((tanhP v - 1) + (tanhP v + 1) * tanhG v) = 161000101163392411792077383041562669 / 25320140138642112675088031086018560000 * (s ^ 29) +
        843528802749347254959034306249356761 / 4220023356440352112514671847669760000 * (t * s ^ 28) +
        1123742295809374560566029760444475163 / 375113187239142410001304164237312000 * (t ^ 2 * s ^ 27) +
        53416324470499443508767421512823461109 / 1875565936195712050006520821186560000 * (t ^ 3 * s ^ 26) +
        30132749880863288773203217932296174201 / 156297161349642670833876735098880000 * (t ^ 4 * s ^ 25) +
        2289656004232570761187441676943944911 / 2315513501476187716057433112576000 * (t ^ 5 * s ^ 24) +
        34664256838529878949038724142852325517 / 8683175630535703935215374172160000 * (t ^ 6 * s ^ 23) +
        75303097182562823599535002987613155187 / 5788783753690469290143582781440000 * (t ^ 7 * s ^ 22) +
        268609417594692822456882667781312689309 / 7718378338253959053524777041920000 * (t ^ 8 * s ^ 21) +
        39789520087461123849102011613197846413 / 514558555883597270234985136128000 * (t ^ 9 * s ^ 20) +
        24659869323636643001827065641578713841 / 171519518627865756744995045376000 * (t ^ 10 * s ^ 19) +
        64203178584055651016855118157357245067 / 285865864379776261241658408960000 * (t ^ 11 * s ^ 18) +
        28117638800420992585845508474984894799 / 95288621459925420413886136320000 * (t ^ 12 * s ^ 17) +
        10337450056187902265709519589959373529 / 31762873819975140137962045440000 * (t ^ 13 * s ^ 16) +
        3175582855108681440382387667934671551 / 10587624606658380045987348480000 * (t ^ 14 * s ^ 15) +
        161923609616363266641508011318190273 / 705841640443892003065823232000 * (t ^ 15 * s ^ 14) +
        9470129125264442946274148269574051 / 65355707448508518802391040000 * (t ^ 16 * s ^ 13) +
        833385033042070325458745605640077 / 10892617908084753133731840000 * (t ^ 17 * s ^ 12) +
        595609516221459863042947718460611 / 16338926862127129700597760000 * (t ^ 18 * s ^ 11) +
        51770787332106303748164351349601 / 2723154477021188283432960000 * (t ^ 19 * s ^ 10) +
        371292816568025304590493289093 / 30257271966902092038144000 * (t ^ 20 * s ^ 9) +
        24978382185420702438742604651 / 3025727196690209203814400 * (t ^ 21 * s ^ 8) +
        59928930667934201698791912187 / 12607196652875871682560000 * (t ^ 22 * s ^ 7) +
        18626002814313071288663209 / 8646911284551352320000 * (t ^ 23 * s ^ 6) +
        129902035065218287514668463 / 175099953512164884480000 * (t ^ 24 * s ^ 5) +
        10979297690935257754736789 / 58366651170721628160000 * (t ^ 25 * s ^ 4) +
        81129719559955550312413 / 2431943798780067840000 * (t ^ 26 * s ^ 3) +
        6082086516493585750963 / 1621295865853378560000 * (t ^ 27 * s ^ 2) +
        14376602400538912301 / 67553994410557440000 * (t ^ 28 * s) +
        97345202353942859 / 45035996273704960000 * (t ^ 29) := by
    rw [tanhP, tanhG, hv, hst]; ring
  have a0 : 0 ≤ 99 / 20000 * (1 + tanhG v) + ((tanhP v - 1) + (tanhP v + 1) * tanhG v) := by rw [a]; positivity
  have b0 : 0 ≤ 99 / 20000 * (1 + tanhG v) - ((tanhP v - 1) + (tanhP v + 1) * tanhG v) := by rw [b]; positivity
  rw [abs_le]
  constructor <;> linarith

/-- the polynomial is close to `(1 - G)/(1 + G)` -/
theorem tanhPG (v : ℝ) (h0 : 0 ≤ v) (h1 : v ≤ 1) : |(tanhP v - 1) + (tanhP v + 1) * tanhG v| ≤ 99 / 20000 * (1 + tanhG v) := by
  rcases le_total v (1 / 6) with g0 | g0
  · exact tanhPG_0 v h0 g0
  rcases le_total v (1 / 3) with g1 | g1
  · exact tanhPG_1 v g0 g1
  rcases le_total v (1 / 2) with g2 | g2
  · exact tanhPG_2 v g1 g2
  rcases le_total v (2 / 3) with g3 | g3
  · exact tanhPG_3 v g2 g3
  rcases le_total v (5 / 6) with g4 | g4
  · exact tanhPG_4 v g3 g4
  exact tanhPG_5 v g4 h1

theorem hasDerivAt_tanhG (v : ℝ) : HasDerivAt tanhG (tanhG' v) v := by
  unfold tanhG tanhG'
  have h (c : ℝ) (n : ℕ) : HasDerivAt (fun v : ℝ => c * v ^ n) (c * (n * v ^ (n - 1))) v := (hasDerivAt_pow n v).const_mul c
  have h1 (c : ℝ) : HasDerivAt (fun v : ℝ => c * v) (c * 1) v := (hasDerivAt_id v).const_mul c
  refine HasDerivAt.congr_deriv (((((((((((((hasDerivAt_const v _).fun_add (h1 _)).fun_add (h _ 2)).fun_add (h _ 3)).fun_add (h _ 4)).fun_add (h _ 5)).fun_add (h _ 6)).fun_add (h _ 7)).fun_add (h _ 8)).fun_add (h _ 9)).fun_add (h _ 10)).fun_add (h _ 11)).fun_add (h _ 12)) ?_
  norm_num
  ring

/-- the polynomial is close to the exponential -/
theorem tanhG_close (v : ℝ) (h0 : 0 ≤ v) (h1 : v ≤ 1) : |tanhG v - Real.exp (-(10 * v))| ≤ 3 / 100000 := by
  have hd : ∀ z : ℝ, HasDerivAt (fun z => Real.exp (10 * z)) (Real.exp (10 * z) * (10 * 1)) z := fun z =>
    ((hasDerivAt_id z).const_mul 10).exp
  have key : ∀ c : ℝ, (∀ z ∈ Set.Icc (0 : ℝ) 1, 0 ≤ tanhG' z + 10 * tanhG z + 10 * c) → 1 + c ≤ tanhG v * Real.exp (10 * v) + c * Real.exp (10 * v) := by
    intro c hc
    have hm : MonotoneOn (fun z => tanhG z * Real.exp (10 * z) + c * Real.exp (10 * z)) (Set.Icc 0 1) := by
      refine monotoneOn_of_hasDerivWithinAt_nonneg (f' := fun z => tanhG' z * Real.exp (10 * z) + tanhG z * (Real.exp (10 * z) * (10 * 1)) +
          c * (Real.exp (10 * z) * (10 * 1))) (convex_Icc _ _)
        (fun z _ => (((hasDerivAt_tanhG z).mul (hd z)).add ((hd z).const_mul c)).continuousAt.continuousWithinAt)
        (fun z _ => (((hasDerivAt_tanhG z).mul (hd z)).add ((hd z).const_mul c)).hasDerivWithinAt) (fun z hz => ?_)
      have := mul_nonneg (hc z (interior_subset hz)) (Real.exp_pos (10 * z)).le
      linarith
    have := hm ⟨le_rfl, zero_le_one⟩ ⟨h0, h1⟩ h0
    simpa [tanhG] using this
  have key' : ∀ c : ℝ, (∀ z ∈ Set.Icc (0 : ℝ) 1, tanhG' z + 10 * tanhG z + 10 * c ≤ 0) → tanhG v * Real.exp (10 * v) + c * Real.exp (10 * v) ≤ 1 + c := by
    intro c hc
    have hm : AntitoneOn (fun z => tanhG z * Real.exp (10 * z) + c * Real.exp (10 * z)) (Set.Icc 0 1) := by
      refine antitoneOn_of_hasDerivWithinAt_nonpos (f' := fun z => tanhG' z * Real.exp (10 * z) + tanhG z * (Real.exp (10 * z) * (10 * 1)) +
          c * (Real.exp (10 * z) * (10 * 1))) (convex_Icc _ _)
        (fun z _ => (((hasDerivAt_tanhG z).mul (hd z)).add ((hd z).const_mul c)).continuousAt.continuousWithinAt)
        (fun z _ => (((hasDerivAt_tanhG z).mul (hd z)).add ((hd z).const_mul c)).hasDerivWithinAt) (fun z hz => ?_)
      have := mul_nonneg (neg_nonneg.2 (hc z (interior_subset hz))) (Real.exp_pos (10 * z)).le
      linarith
    have := hm ⟨le_rfl, zero_le_one⟩ ⟨h0, h1⟩ h0
    simpa [tanhG] using this
  have a := key (3 / 100000) (fun z hz => by have := (abs_le.1 (tanhG_ode z hz.1 hz.2)).1; linarith)
  have b := key' (-(3 / 100000)) (fun z hz => by have := (abs_le.1 (tanhG_ode z hz.1 hz.2)).2; linarith)
  have he : Real.exp (10 * v) * Real.exp (-(10 * v)) = 1 := by rw [← Real.exp_add, add_neg_cancel, Real.exp_zero]
  set e := Real.exp (10 * v)
  set i := Real.exp (-(10 * v))
  have hi0 : 0 < i := Real.exp_pos _
  have a' := mul_le_mul_of_nonneg_right a hi0.le
  have b' := mul_le_mul_of_nonneg_right b hi0.le
  rw [show (tanhG v * e + 3 / 100000 * e) * i = (tanhG v + 3 / 100000) * (e * i) by ring, he] at a'
  rw [show (tanhG v * e + -(3 / 100000) * e) * i = (tanhG v - 3 / 100000) * (e * i) by ring, he] at b'
  rw [abs_le]; constructor <;> linarith

theorem tanh_exp (x : ℝ) : Real.tanh x * (1 + Real.exp (-(2 * x))) = 1 - Real.exp (-(2 * x)) := by
  rw [Real.tanh_eq, show -(2 * x) = -x + -x by ring, Real.exp_add]
  have h : Real.exp x * Real.exp (-x) = 1 := by rw [← Real.exp_add, add_neg_cancel, Real.exp_zero]
  have hp : 0 < Real.exp x + Real.exp (-x) := by positivity
  rw [div_mul_eq_mul_div, div_eq_iff hp.ne']
  linear_combination (2 * Real.exp (-x)) * h

/-- the polynomial is close to the hyperbolic tangent -/
theorem tanhP_close (y : ℝ) (h : |y| ≤ 1) : |tanhP y - Real.tanh (5 * y)| ≤ 51 / 10000 := by
  have key : ∀ z : ℝ, 0 ≤ z → z ≤ 1 → |tanhP z - Real.tanh (5 * z)| ≤ 51 / 10000 := by
    intro z h0 h1
    have a := tanhPG z h0 h1
    have b := tanhG_close z h0 h1
    have c := tanh_exp (5 * z)
    rw [show 2 * (5 * z) = 10 * z by ring] at c
    set e := Real.exp (-(10 * z))
    have he0 : 0 < e := Real.exp_pos _
    set G := tanhG z
    set P := tanhP z
    set t := Real.tanh (5 * z)
    have ht1 : t < 1 := Real.tanh_lt_one _
    have ht0 : -1 < t := Real.neg_one_lt_tanh _
    have i : (P - t) * (1 + e) = ((P - 1) + (P + 1) * G) + (P + 1) * (e - G) := by linear_combination -c
    rw [abs_le] at a b ⊢
    have hP : |P| ≤ 3 / 2 := by
      rw [abs_le]
      constructor <;> nlinarith
    rw [abs_le] at hP
    constructor
    · by_contra hn
      push Not at hn
      nlinarith
    · by_contra hn
      push Not at hn
      nlinarith
  rcases abs_le.1 h with ⟨h0, h1⟩
  rcases le_total 0 y with g | g
  · exact key y g h1
  · have := key (-y) (by linarith) (by linarith)
    rw [mul_neg, Real.tanh_neg, show tanhP (-y) = -tanhP y by rw [tanhP, tanhP]; ring] at this
    rw [← abs_neg, show -(tanhP y - Real.tanh (5 * y)) = -tanhP y - -Real.tanh (5 * y) by ring]
    exact this

end Spu.Props
