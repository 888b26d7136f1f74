import Mathlib.Tactic.Linarith
import Mathlib.Tactic.Ring
import Mathlib.Tactic.Positivity
import Mathlib.Analysis.SpecialFunctions.Trigonometric.ArctanDeriv
import Mathlib.Analysis.Calculus.MeanValue

set_option autoImplicit false

/-! # C92: the polynomial for the arc tangent -/

namespace Spu.Props

/-- the polynomial of `AtanApproxLocal` for at most 20 fraction bits, with the exact coefficients -/
noncomputable def atanP (v : ℝ) : ℝ := 14050327 / 2199023255552 + (16766853 / 16777216) * v + (10384919 / 1073741824) * v ^ 2 + (-13036263 / 33554432) * v ^ 3 + (1161891 / 8388608) * v ^ 4 + (4417271 / 67108864) * v ^ 5 + (-10600087 / 268435456) * v ^ 6

/-- its derivative -/
noncomputable def atanP' (v : ℝ) : ℝ := 16766853 / 16777216 + (10384919 / 536870912) * v + (-39108789 / 33554432) * v ^ 2 + (1161891 / 2097152) * v ^ 3 + (22086355 / 67108864) * v ^ 4 + (-31800261 / 134217728) * v ^ 5

/-- a polynomial closer to the arc tangent, and its derivative -/
noncomputable def atanQ (v : ℝ) : ℝ := (1073741613 / 1073741824) * v + (10661 / 536870912) * v ^ 2 + (-134402923 / 402653184) * v ^ 3 + (20727087 / 4294967296) * v ^ 4 + (46083139 / 268435456) * v ^ 5 + (164219953 / 1610612736) * v ^ 6 + (-2819636471 / 7516192768) * v ^ 7 + (1402631805 / 4294967296) * v ^ 8 + (-1280578915 / 9663676416) * v ^ 9 + (116996127 / 5368709120) * v ^ 10
noncomputable def atanQ' (v : ℝ) : ℝ := 1073741613 / 1073741824 + (10661 / 268435456) * v + (-134402923 / 134217728) * v ^ 2 + (20727087 / 1073741824) * v ^ 3 + (230415695 / 268435456) * v ^ 4 + (164219953 / 268435456) * v ^ 5 + (-2819636471 / 1073741824) * v ^ 6 + (1402631805 / 536870912) * v ^ 7 + (-1280578915 / 1073741824) * v ^ 8 + (116996127 / 536870912) * v ^ 9

theorem atanP_slope_0 (v : ℝ) (h0 : -1 / 16 ≤ v) (h1 : v ≤ 1 / 4) : |atanP' v| ≤ 101 / 100 := by
  obtain ⟨t, ht, hv⟩ : ∃ t : ℝ, 0 ≤ t ∧ v = -1 / 16 + t * (5 / 16) := ⟨(v - (-1 / 16)) * (16 / 5), mul_nonneg (by linarith) (by norm_num), by ring⟩
  obtain ⟨s, hs, hst⟩ : ∃ s : ℝ, 0 ≤ s ∧ s = 1 - t := ⟨1 - t, by linarith, rfl⟩
  have a : 101 / 100 + (atanP' v) = 7049155441977757 / 3518437208883200 * (s ^ 8) +
        56581466851138931 / 3518437208883200 * (t * s ^ 7) +
        198260597405946571 / 3518437208883200 * (t ^ 2 * s ^ 6) +
        396155145831560017 / 3518437208883200 * (t ^ 3 * s ^ 5) +
        24689537724645587 / 175921860444160 * (t ^ 4 * s ^ 4) +
        12288199635639981 / 109951162777600 * (t ^ 5 * s ^ 3) +
        1526559271788357 / 27487790694400 * (t ^ 6 * s ^ 2) +
        216429130405301 / 13743895347200 * (t ^ 7 * s) +
        6703871364443 / 3435973836800 * (t ^ 8) := by
    rw [atanP', hv, hst]; ring
  have b : 101 / 100 - (atanP' v) = 58087719966307 / 3518437208883200 * (s ^ 8) +
        276478444413581 / 3518437208883200 * (t * s ^ 7) +
        742211128487221 / 3518437208883200 * (t ^ 2 * s ^ 6) +
        1850471237307567 / 3518437208883200 * (t ^ 3 * s ^ 5) +
        185813342158637 / 175921860444160 * (t ^ 4 * s ^ 4) +
        149475897762131 / 109951162777600 * (t ^ 5 * s ^ 3) +
        28150169886907 / 27487790694400 * (t ^ 6 * s ^ 2) +
        5672218405451 / 13743895347200 * (t ^ 7 * s) +
        236795785893 / 3435973836800 * (t ^ 8) := by
    rw [atanP', hv, hst]; ring
  have a0 : 0 ≤ 101 / 100 + (atanP' v) := by rw [a]; positivity
  have b0 : 0 ≤ 101 / 100 - (atanP' v) := by rw [b]; positivity
  rw [abs_le]
  constructor <;> linarith

theorem atanP_slope_1 (v : ℝ) (h0 : 1 / 4 ≤ v) (h1 : v ≤ 17 / 16) : |atanP' v| ≤ 101 / 100 := by
  obtain ⟨t, ht, hv⟩ : ∃ t : ℝ, 0 ≤ t ∧ v = 1 / 4 + t * (13 / 16) := ⟨(v - (1 / 4)) * (16 / 13), mul_nonneg (by linarith) (by norm_num), by ring⟩
  obtain ⟨s, hs, hst⟩ : ∃ s : ℝ, 0 ≤ s ∧ s = 1 - t := ⟨1 - t, by linarith, rfl⟩
  have a : 101 / 100 + (atanP' v) = 6703871364443 / 3435973836800 * (s ^ 8) +
        209570242130051 / 13743895347200 * (t * s ^ 7) +
        1420274154811257 / 27487790694400 * (t ^ 2 * s ^ 6) +
        10935467098745931 / 109951162777600 * (t ^ 3 * s ^ 5) +
        21000737586231587 / 175921860444160 * (t ^ 4 * s ^ 4) +
        322993621296322567 / 3518437208883200 * (t ^ 5 * s ^ 3) +
        155751669832106221 / 3518437208883200 * (t ^ 6 * s ^ 2) +
        43045538089933781 / 3518437208883200 * (t ^ 7 * s) +
        5197810881650707 / 3518437208883200 * (t ^ 8) := by
    rw [atanP', hv, hst]; ring
  have b : 101 / 100 - (atanP' v) = 236795785893 / 3435973836800 * (s ^ 8) +
        12531106680701 / 13743895347200 * (t * s ^ 7) +
        134435286864007 / 27487790694400 * (t ^ 2 * s ^ 6) +
        1502208434656181 / 109951162777600 * (t ^ 3 * s ^ 5) +
        3874613480572637 / 175921860444160 * (t ^ 4 * s ^ 4) +
        75011995772545017 / 3518437208883200 * (t ^ 5 * s ^ 3) +
        43251138702327571 / 3518437208883200 * (t ^ 6 * s ^ 2) +
        13812407205618731 / 3518437208883200 * (t ^ 7 * s) +
        1909432280293357 / 3518437208883200 * (t ^ 8) := by
    rw [atanP', hv, hst]; ring
  have a0 : 0 ≤ 101 / 100 + (atanP' v) := by rw [a]; positivity
  have b0 : 0 ≤ 101 / 100 - (atanP' v) := by rw [b]; positivity
  rw [abs_le]
  constructor <;> linarith

/-- the slope -/
theorem atanP_slope (v : ℝ) (h0 : -1 / 16 ≤ v) (h1 : v ≤ 17 / 16) : |atanP' v| ≤ 101 / 100 := by
  rcases le_total v (1 / 4) with g0 | g0
  · exact atanP_slope_0 v h0 g0
  exact atanP_slope_1 v g0 h1

theorem atanQ_deriv_0 (v : ℝ) (h0 : 0 ≤ v) (h1 : v ≤ 1 / 4) : |atanQ' v * (1 + v ^ 2) - 1| ≤ 1 / 1000000 := by
  obtain ⟨t, ht, hv⟩ : ∃ t : ℝ, 0 ≤ t ∧ v = 0 + t * (1 / 4) := ⟨(v - (0)) * (4), mul_nonneg (by linarith) (by norm_num), by ring⟩
  obtain ⟨s, hs, hst⟩ : ∃ s : ℝ, 0 ≤ s ∧ s = 1 - t := ⟨1 - t, by linarith, rfl⟩
  have a : 1 / 1000000 + (atanQ' v * (1 + v ^ 2) - 1) = 13480341 / 16777216000000 * (s ^ 11) +
        78715469 / 4194304000000 * (t * s ^ 10) +
        3072505641 / 53687091200000 * (t ^ 2 * s ^ 9) +
        22625652067 / 214748364800000 * (t ^ 3 * s ^ 8) +
        45282063509 / 214748364800000 * (t ^ 4 * s ^ 7) +
        6522544109883 / 17179869184000000 * (t ^ 5 * s ^ 6) +
        31996087455157 / 68719476736000000 * (t ^ 6 * s ^ 5) +
        10167807707277 / 27487790694400000 * (t ^ 7 * s ^ 4) +
        20965980117679 / 109951162777600000 * (t ^ 8 * s ^ 3) +
        859305065971 / 13743895347200000 * (t ^ 9 * s ^ 2) +
        211540552441701 / 17592186044416000000 * (t ^ 10 * s) +
        36815271479457 / 35184372088832000000 * (t ^ 11) := by
    rw [atanQ', hv, hst]; ring
  have b : 1 / 1000000 - (atanQ' v * (1 + v ^ 2) - 1) = 20074091 / 16777216000000 * (s ^ 11) +
        13559219 / 4194304000000 * (t * s ^ 10) +
        2833074391 / 53687091200000 * (t ^ 2 * s ^ 9) +
        48241308317 / 214748364800000 * (t ^ 3 * s ^ 8) +
        96451857259 / 214748364800000 * (t ^ 4 * s ^ 7) +
        9351655016133 / 17179869184000000 * (t ^ 5 * s ^ 6) +
        31500709048907 / 68719476736000000 * (t ^ 6 * s ^ 5) +
        7974134151027 / 27487790694400000 * (t ^ 7 * s ^ 4) +
        15317903598929 / 109951162777600000 * (t ^ 8 * s ^ 3) +
        652523422221 / 13743895347200000 * (t ^ 9 * s ^ 2) +
        175487540535451 / 17592186044416000000 * (t ^ 10 * s) +
        33553472698207 / 35184372088832000000 * (t ^ 11) := by
    rw [atanQ', hv, hst]; ring
  have a0 : 0 ≤ 1 / 1000000 + (atanQ' v * (1 + v ^ 2) - 1) := by rw [a]; positivity
  have b0 : 0 ≤ 1 / 1000000 - (atanQ' v * (1 + v ^ 2) - 1) := by rw [b]; positivity
  rw [abs_le]
  constructor <;> linarith

theorem atanQ_deriv_1 (v : ℝ) (h0 : 1 / 4 ≤ v) (h1 : v ≤ 1 / 2) : |atanQ' v * (1 + v ^ 2) - 1| ≤ 1 / 1000000 := by
  obtain ⟨t, ht, hv⟩ : ∃ t : ℝ, 0 ≤ t ∧ v = 1 / 4 + t * (1 / 4) := ⟨(v - (1 / 4)) * (4), mul_nonneg (by linarith) (by norm_num), by ring⟩
  obtain ⟨s, hs, hst⟩ : ∃ s : ℝ, 0 ≤ s ∧ s = 1 - t := ⟨1 - t, by linarith, rfl⟩
  have a : 1 / 1000000 + (atanQ' v * (1 + v ^ 2) - 1) = 36815271479457 / 35184372088832000000 * (s ^ 11) +
        96713716916163 / 8796093022208000000 * (t * s ^ 10) +
        91877929834913 / 1759218604441600000 * (t ^ 2 * s ^ 9) +
        33307645475983 / 219902325555200000 * (t ^ 3 * s ^ 8) +
        66687299411341 / 219902325555200000 * (t ^ 4 * s ^ 7) +
        120379235586253 / 274877906944000000 * (t ^ 5 * s ^ 6) +
        125007614273753 / 274877906944000000 * (t ^ 6 * s ^ 5) +
        35775927067 / 107374182400000 * (t ^ 7 * s ^ 4) +
        4612469230201 / 27487790694400000 * (t ^ 8 * s ^ 3) +
        381833081423 / 6871947673600000 * (t ^ 9 * s ^ 2) +
        377291637673 / 34359738368000000 * (t ^ 10 * s) +
        4246857921 / 4294967296000000 * (t ^ 11) := by
    rw [atanQ', hv, hst]; ring
  have b : 1 / 1000000 - (atanQ' v * (1 + v ^ 2) - 1) = 33553472698207 / 35184372088832000000 * (s ^ 11) +
        96800329572413 / 8796093022208000000 * (t * s ^ 10) +
        101636116653663 / 1759218604441600000 * (t ^ 2 * s ^ 9) +
        39260121957233 / 219902325555200000 * (t ^ 3 * s ^ 8) +
        78448235455091 / 219902325555200000 * (t ^ 4 * s ^ 7) +
        133607950430003 / 274877906944000000 * (t ^ 5 * s ^ 6) +
        128979571742503 / 274877906944000000 * (t ^ 6 * s ^ 5) +
        35091033317 / 107374182400000 * (t ^ 7 * s ^ 4) +
        4458501698951 / 27487790694400000 * (t ^ 8 * s ^ 3) +
        374081162673 / 6871947673600000 * (t ^ 9 * s ^ 2) +
        378622606423 / 34359738368000000 * (t ^ 10 * s) +
        4343076671 / 4294967296000000 * (t ^ 11) := by
    rw [atanQ', hv, hst]; ring
  have a0 : 0 ≤ 1 / 1000000 + (atanQ' v * (1 + v ^ 2) - 1) := by rw [a]; positivity
  have b0 : 0 ≤ 1 / 1000000 - (atanQ' v * (1 + v ^ 2) - 1) := by rw [b]; positivity
  rw [abs_le]
  constructor <;> linarith

theorem atanQ_deriv_2 (v : ℝ) (h0 : 1 / 2 ≤ v) (h1 : v ≤ 3 / 4) : |atanQ' v * (1 + v ^ 2) - 1| ≤ 1 / 1000000 := by
  obtain ⟨t, ht, hv⟩ : ∃ t : ℝ, 0 ≤ t ∧ v = 1 / 2 + t * (1 / 4) := ⟨(v - (1 / 2)) * (4), mul_nonneg (by linarith) (by norm_num), by ring⟩
  obtain ⟨s, hs, hst⟩ : ∃ s : ℝ, 0 ≤ s ∧ s = 1 - t := ⟨1 - t, by linarith, rfl⟩
  have a : 1 / 1000000 + (atanQ' v * (1 + v ^ 2) - 1) = 4246857921 / 4294967296000000 * (s ^ 11) +
        370155356423 / 34359738368000000 * (t * s ^ 10) +
        367560518923 / 6871947673600000 * (t ^ 2 * s ^ 9) +
        4426972523951 / 27487790694400000 * (t ^ 3 * s ^ 8) +
        565301854947 / 1717986918400000 * (t ^ 4 * s ^ 7) +
        131585122242503 / 274877906944000000 * (t ^ 5 * s ^ 6) +
        137412706398753 / 274877906944000000 * (t ^ 6 * s ^ 5) +
        80747069730091 / 219902325555200000 * (t ^ 7 * s ^ 4) +
        40166689350983 / 219902325555200000 * (t ^ 8 * s ^ 3) +
        102857981303663 / 1759218604441600000 * (t ^ 9 * s ^ 2) +
        96727025603663 / 8796093022208000000 * (t ^ 10 * s) +
        33164642823207 / 35184372088832000000 * (t ^ 11) := by
    rw [atanQ', hv, hst]; ring
  have b : 1 / 1000000 - (atanQ' v * (1 + v ^ 2) - 1) = 4343076671 / 4294967296000000 * (s ^ 11) +
        385758887673 / 34359738368000000 * (t * s ^ 10) +
        388353725173 / 6871947673600000 * (t ^ 2 * s ^ 9) +
        4643998405201 / 27487790694400000 * (t ^ 3 * s ^ 8) +
        568569511197 / 1717986918400000 * (t ^ 4 * s ^ 7) +
        122402063773753 / 274877906944000000 * (t ^ 5 * s ^ 6) +
        116574479617503 / 274877906944000000 * (t ^ 6 * s ^ 5) +
        64388465136341 / 219902325555200000 * (t ^ 7 * s ^ 4) +
        32401078082233 / 219902325555200000 * (t ^ 8 * s ^ 3) +
        90656065184913 / 1759218604441600000 * (t ^ 9 * s ^ 2) +
        96787020884913 / 8796093022208000000 * (t ^ 10 * s) +
        37204101354457 / 35184372088832000000 * (t ^ 11) := by
    rw [atanQ', hv, hst]; ring
  have a0 : 0 ≤ 1 / 1000000 + (atanQ' v * (1 + v ^ 2) - 1) := by rw [a]; positivity
  have b0 : 0 ≤ 1 / 1000000 - (atanQ' v * (1 + v ^ 2) - 1) := by rw [b]; positivity
  rw [abs_le]
  constructor <;> linarith

theorem atanQ_deriv_3 (v : ℝ) (h0 : 3 / 4 ≤ v) (h1 : v ≤ 1) : |atanQ' v * (1 + v ^ 2) - 1| ≤ 1 / 1000000 := by
  obtain ⟨t, ht, hv⟩ : ∃ t : ℝ, 0 ≤ t ∧ v = 3 / 4 + t * (1 / 4) := ⟨(v - (3 / 4)) * (4), mul_nonneg (by linarith) (by norm_num), by ring⟩
  obtain ⟨s, hs, hst⟩ : ∃ s : ℝ, 0 ≤ s ∧ s = 1 - t := ⟨1 - t, by linarith, rfl⟩
  have a : 1 / 1000000 + (atanQ' v * (1 + v ^ 2) - 1) = 33164642823207 / 35184372088832000000 * (s ^ 11) +
        171357019847951 / 17592186044416000000 * (t * s ^ 10) +
        2523779685759 / 54975581388800000 * (t ^ 2 * s ^ 9) +
        29600456657233 / 219902325555200000 * (t ^ 3 * s ^ 8) +
        7813537782277 / 27487790694400000 * (t ^ 4 * s ^ 7) +
        31647774830157 / 68719476736000000 * (t ^ 5 * s ^ 6) +
        9613442578633 / 17179869184000000 * (t ^ 6 * s ^ 5) +
        200405398893 / 429496729600000 * (t ^ 7 * s ^ 4) +
        49753139567 / 214748364800000 * (t ^ 8 * s ^ 3) +
        349370627 / 6710886400000 * (t ^ 9 * s ^ 2) +
        79020627 / 33554432000000 * (t ^ 10 * s) +
        5116179 / 4194304000000 * (t ^ 11) := by
    rw [atanQ', hv, hst]; ring
  have b : 1 / 1000000 - (atanQ' v * (1 + v ^ 2) - 1) = 37204101354457 / 35184372088832000000 * (s ^ 11) +
        215671073129201 / 17592186044416000000 * (t * s ^ 10) +
        3523534267009 / 54975581388800000 * (t ^ 2 * s ^ 9) +
        42967310775983 / 219902325555200000 * (t ^ 3 * s ^ 8) +
        10328404076027 / 27487790694400000 * (t ^ 4 * s ^ 7) +
        31849021673907 / 68719476736000000 * (t ^ 5 * s ^ 6) +
        6260756547383 / 17179869184000000 * (t ^ 6 * s ^ 5) +
        83062442643 / 429496729600000 * (t ^ 7 * s ^ 4) +
        21113820817 / 214748364800000 * (t ^ 8 * s ^ 3) +
        388826877 / 6710886400000 * (t ^ 9 * s ^ 2) +
        659176877 / 33554432000000 * (t ^ 10 * s) +
        3272429 / 4194304000000 * (t ^ 11) := by
    rw [atanQ', hv, hst]; ring
  have a0 : 0 ≤ 1 / 1000000 + (atanQ' v * (1 + v ^ 2) - 1) := by rw [a]; positivity
  have b0 : 0 ≤ 1 / 1000000 - (atanQ' v * (1 + v ^ 2) - 1) := by rw [b]; positivity
  rw [abs_le]
  constructor <;> linarith

/-- the derivative of `atanQ` is close to that of the arc tangent -/
theorem atanQ_deriv (v : ℝ) (h0 : 0 ≤ v) (h1 : v ≤ 1) : |atanQ' v * (1 + v ^ 2) - 1| ≤ 1 / 1000000 := by
  rcases le_total v (1 / 4) with g0 | g0
  · exact atanQ_deriv_0 v h0 g0
  rcases le_total v (1 / 2) with g1 | g1
  · exact atanQ_deriv_1 v g0 g1
  rcases le_total v (3 / 4) with g2 | g2
  · exact atanQ_deriv_2 v g1 g2
  exact atanQ_deriv_3 v g2 h1

theorem atanPQ_0 (v : ℝ) (h0 : 0 ≤ v) (h1 : v ≤ 1 / 8) : |atanP v - atanQ v| ≤ 1 / 125000 := by
  obtain ⟨t, ht, hv⟩ : ∃ t : ℝ, 0 ≤ t ∧ v = 0 + t * (1 / 8) := ⟨(v - (0)) * (8), mul_nonneg (by linarith) (by norm_num), by ring⟩
  obtain ⟨s, hs, hst⟩ : ∃ s : ℝ, 0 ≤ s ∧ s = 1 - t := ⟨1 - t, by linarith, rfl⟩
  have a : 1 / 125000 + (atanP v - atanQ v) = 494414266319 / 34359738368000000 * (s ^ 11) +
        2786472929509 / 34359738368000000 * (t * s ^ 10) +
        1170748629509 / 6871947673600000 * (t ^ 2 * s ^ 9) +
        3119232965581 / 20615843020800000 * (t ^ 3 * s ^ 8) +
        15343063808671 / 164926744166400000 * (t ^ 4 * s ^ 7) +
        280190499866947 / 824633720832000000 * (t ^ 5 * s ^ 6) +
        1934831453004567 / 2199023255552000000 * (t ^ 6 * s ^ 5) +
        56743056004144947 / 49258120924364800000 * (t ^ 7 * s ^ 4) +
        1368601043514034777 / 1576259869579673600000 * (t ^ 8 * s ^ 3) +
        10991489272133124287 / 28372677652434124800000 * (t ^ 9 * s ^ 2) +
        108716828522790616171 / 1134907106097364992000000 * (t ^ 10 * s) +
        11543261772028291811 / 1134907106097364992000000 * (t ^ 11) := by
    rw [atanP, atanQ, hv, hst]; ring
  have b : 1 / 125000 - (atanP v - atanQ v) = 55341547569 / 34359738368000000 * (s ^ 11) +
        3260841023259 / 34359738368000000 * (t * s ^ 10) +
        4876565323259 / 6871947673600000 * (t ^ 2 * s ^ 9) +
        51306592609331 / 20615843020800000 * (t ^ 3 * s ^ 8) +
        855470145389921 / 164926744166400000 * (t ^ 4 * s ^ 7) +
        5815501964523197 / 824633720832000000 * (t ^ 5 * s ^ 6) +
        14320348452035817 / 2199023255552000000 * (t ^ 6 * s ^ 5) +
        203339822476501197 / 49258120924364800000 * (t ^ 7 * s ^ 4) +
        2792725012176303527 / 1576259869579673600000 * (t ^ 8 * s ^ 3) +
        13976467062008905537 / 28372677652434124800000 * (t ^ 9 * s ^ 2) +
        91026822150345622421 / 1134907106097364992000000 * (t ^ 10 * s) +
        6615251925529548061 / 1134907106097364992000000 * (t ^ 11) := by
    rw [atanP, atanQ, hv, hst]; ring
  have a0 : 0 ≤ 1 / 125000 + (atanP v - atanQ v) := by rw [a]; positivity
  have b0 : 0 ≤ 1 / 125000 - (atanP v - atanQ v) := by rw [b]; positivity
  rw [abs_le]
  constructor <;> linarith

theorem atanPQ_1 (v : ℝ) (h0 : 1 / 8 ≤ v) (h1 : v ≤ 1 / 4) : |atanP v - atanQ v| ≤ 1 / 125000 := by
  obtain ⟨t, ht, hv⟩ : ∃ t : ℝ, 0 ≤ t ∧ v = 1 / 8 + t * (1 / 8) := ⟨(v - (1 / 8)) * (8), mul_nonneg (by linarith) (by norm_num), by ring⟩
  obtain ⟨s, hs, hst⟩ : ∃ s : ℝ, 0 ≤ s ∧ s = 1 - t := ⟨1 - t, by linarith, rfl⟩
  have a : 1 / 125000 + (atanP v - atanQ v) = 11543261772028291811 / 1134907106097364992000000 * (s ^ 11) +
        145234930461831803671 / 1134907106097364992000000 * (t * s ^ 10) +
        10060507378446710581 / 14186338826217062400000 * (t ^ 2 * s ^ 9) +
        43275932159679645449 / 18915118434956083200000 * (t ^ 3 * s ^ 8) +
        11317335356189591831 / 2364389804369510400000 * (t ^ 4 * s ^ 7) +
        11545778360392204331 / 1688849860263936000000 * (t ^ 5 * s ^ 6) +
        479758842907105519 / 70368744177664000000 * (t ^ 6 * s ^ 5) +
        937247456867101663 / 197032483697459200000 * (t ^ 7 * s ^ 4) +
        224545598510282447 / 98516241848729600000 * (t ^ 8 * s ^ 3) +
        634240715154878591 / 886646176638566400000 * (t ^ 9 * s ^ 2) +
        4589103363998197 / 34634616274944000000 * (t ^ 10 * s) +
        12176845816007539 / 1108307720798208000000 * (t ^ 11) := by
    rw [atanP, atanQ, hv, hst]; ring
  have b : 1 / 125000 - (atanP v - atanQ v) = 6615251925529548061 / 1134907106097364992000000 * (s ^ 11) +
        54508720211304434921 / 1134907106097364992000000 * (t * s ^ 10) +
        2423470788624304331 / 14186338826217062400000 * (t ^ 2 * s ^ 9) +
        6659980508604414199 / 18915118434956083200000 * (t ^ 3 * s ^ 8) +
        1166642810881423081 / 2364389804369510400000 * (t ^ 4 * s ^ 7) +
        938199806678810581 / 1688849860263936000000 * (t ^ 5 * s ^ 6) +
        40406914054186769 / 70368744177664000000 * (t ^ 6 * s ^ 5) +
        103084057055482913 / 197032483697459200000 * (t ^ 7 * s ^ 4) +
        35537279970363697 / 98516241848729600000 * (t ^ 8 * s ^ 3) +
        146007920287059841 / 886646176638566400000 * (t ^ 9 * s ^ 2) +
        1506589100391947 / 34634616274944000000 * (t ^ 10 * s) +
        5556077716763789 / 1108307720798208000000 * (t ^ 11) := by
    rw [atanP, atanQ, hv, hst]; ring
  have a0 : 0 ≤ 1 / 125000 + (atanP v - atanQ v) := by rw [a]; positivity
  have b0 : 0 ≤ 1 / 125000 - (atanP v - atanQ v) := by rw [b]; positivity
  rw [abs_le]
  constructor <;> linarith

theorem atanPQ_2 (v : ℝ) (h0 : 1 / 4 ≤ v) (h1 : v ≤ 3 / 8) : |atanP v - atanQ v| ≤ 1 / 125000 := by
  obtain ⟨t, ht, hv⟩ : ∃ t : ℝ, 0 ≤ t ∧ v = 1 / 4 + t * (1 / 8) := ⟨(v - (1 / 4)) * (8), mul_nonneg (by linarith) (by norm_num), by ring⟩
  obtain ⟨s, hs, hst⟩ : ∃ s : ℝ, 0 ≤ s ∧ s = 1 - t := ⟨1 - t, by linarith, rfl⟩
  have a : 1 / 125000 + (atanP v - atanQ v) = 12176845816007539 / 1108307720798208000000 * (s ^ 11) +
        60519650152111777 / 554153860399104000000 * (t * s ^ 10) +
        427744656405128591 / 886646176638566400000 * (t ^ 2 * s ^ 9) +
        369194455531847341 / 295548725546188800000 * (t ^ 3 * s ^ 8) +
        1244601870613304989 / 591097451092377600000 * (t ^ 4 * s ^ 7) +
        128041757448037733 / 52776558133248000000 * (t ^ 5 * s ^ 6) +
        3298646891344254331 / 1688849860263936000000 * (t ^ 6 * s ^ 5) +
        2610908141170179331 / 2364389804369510400000 * (t ^ 7 * s ^ 4) +
        8222723401124045449 / 18915118434956083200000 * (t ^ 8 * s ^ 3) +
        366043285256472143 / 3152519739159347200000 * (t ^ 9 * s ^ 2) +
        2475472689619961519 / 126100789566373888000000 * (t ^ 10 * s) +
        208757308736112979 / 126100789566373888000000 * (t ^ 11) := by
    rw [atanP, atanQ, hv, hst]; ring
  have b : 1 / 125000 - (atanP v - atanQ v) = 5556077716763789 / 1108307720798208000000 * (s ^ 11) +
        37011429278130527 / 554153860399104000000 * (t * s ^ 10) +
        352503979036809841 / 886646176638566400000 * (t ^ 2 * s ^ 9) +
        411054179910091091 / 295548725546188800000 * (t ^ 3 * s ^ 8) +
        1876392671154448739 / 591097451092377600000 * (t ^ 4 * s ^ 7) +
        262082560272931483 / 52776558133248000000 * (t ^ 5 * s ^ 6) +
        9185331275726760581 / 1688849860263936000000 * (t ^ 6 * s ^ 5) +
        9873070025900835581 / 2364389804369510400000 * (t ^ 7 * s ^ 4) +
        41713189267160014199 / 18915118434956083200000 * (t ^ 8 * s ^ 3) +
        2408174085203753393 / 3152519739159347200000 * (t ^ 9 * s ^ 2) +
        19718266274061842769 / 126100789566373888000000 * (t ^ 10 * s) +
        1808855324325869229 / 126100789566373888000000 * (t ^ 11) := by
    rw [atanP, atanQ, hv, hst]; ring
  have a0 : 0 ≤ 1 / 125000 + (atanP v - atanQ v) := by rw [a]; positivity
  have b0 : 0 ≤ 1 / 125000 - (atanP v - atanQ v) := by rw [b]; positivity
  rw [abs_le]
  constructor <;> linarith

theorem atanPQ_3 (v : ℝ) (h0 : 3 / 8 ≤ v) (h1 : v ≤ 1 / 2) : |atanP v - atanQ v| ≤ 1 / 125000 := by
  obtain ⟨t, ht, hv⟩ : ∃ t : ℝ, 0 ≤ t ∧ v = 3 / 8 + t * (1 / 8) := ⟨(v - (3 / 8)) * (8), mul_nonneg (by linarith) (by norm_num), by ring⟩
  obtain ⟨s, hs, hst⟩ : ∃ s : ℝ, 0 ≤ s ∧ s = 1 - t := ⟨1 - t, by linarith, rfl⟩
  have a : 1 / 125000 + (atanP v - atanQ v) = 208757308736112979 / 126100789566373888000000 * (s ^ 11) +
        2117188102574524019 / 126100789566373888000000 * (t * s ^ 10) +
        4319877163986137 / 49258120924364800000 * (t ^ 2 * s ^ 9) +
        725766989573294353 / 2364389804369510400000 * (t ^ 3 * s ^ 8) +
        112912581146059841 / 147774362773094400000 * (t ^ 4 * s ^ 7) +
        143528706143697341 / 105553116266496000000 * (t ^ 5 * s ^ 6) +
        1889790250644471 / 1099511627776000000 * (t ^ 6 * s ^ 5) +
        1172698470695673 / 769658139443200000 * (t ^ 7 * s ^ 4) +
        355618283929387 / 384829069721600000 * (t ^ 8 * s ^ 3) +
        1263846661181911 / 3463461627494400000 * (t ^ 9 * s ^ 2) +
        182944632334067 / 2164663517184000000 * (t ^ 10 * s) +
        18854959240597 / 2164663517184000000 * (t ^ 11) := by
    rw [atanP, atanQ, hv, hst]; ring
  have b : 1 / 125000 - (atanP v - atanQ v) = 1808855324325869229 / 126100789566373888000000 * (s ^ 11) +
        20076550861107280269 / 126100789566373888000000 * (t * s ^ 10) +
        39027269249454887 / 49258120924364800000 * (t ^ 2 * s ^ 9) +
        5516222093962213103 / 2364389804369510400000 * (t ^ 3 * s ^ 8) +
        667336054295878591 / 147774362773094400000 * (t ^ 4 * s ^ 7) +
        636719929298241091 / 105553116266496000000 * (t ^ 5 * s ^ 6) +
        6237799701875721 / 1099511627776000000 * (t ^ 6 * s ^ 5) +
        2891096505564423 / 769658139443200000 * (t ^ 7 * s ^ 4) +
        660330460135637 / 384829069721600000 * (t ^ 8 * s ^ 3) +
        1783999571013161 / 3463461627494400000 * (t ^ 9 * s ^ 2) +
        198036146690317 / 2164663517184000000 * (t ^ 10 * s) +
        15779657034347 / 2164663517184000000 * (t ^ 11) := by
    rw [atanP, atanQ, hv, hst]; ring
  have a0 : 0 ≤ 1 / 125000 + (atanP v - atanQ v) := by rw [a]; positivity
  have b0 : 0 ≤ 1 / 125000 - (atanP v - atanQ v) := by rw [b]; positivity
  rw [abs_le]
  constructor <;> linarith

theorem atanPQ_4 (v : ℝ) (h0 : 1 / 2 ≤ v) (h1 : v ≤ 5 / 8) : |atanP v - atanQ v| ≤ 1 / 125000 := by
  obtain ⟨t, ht, hv⟩ : ∃ t : ℝ, 0 ≤ t ∧ v = 1 / 2 + t * (1 / 8) := ⟨(v - (1 / 2)) * (8), mul_nonneg (by linarith) (by norm_num), by ring⟩
  obtain ⟨s, hs, hst⟩ : ∃ s : ℝ, 0 ≤ s ∧ s = 1 - t := ⟨1 - t, by linarith, rfl⟩
  have a : 1 / 125000 + (atanP v - atanQ v) = 18854959240597 / 2164663517184000000 * (s ^ 11) +
        231864470959067 / 2164663517184000000 * (t * s ^ 10) +
        2046564079181911 / 3463461627494400000 * (t ^ 2 * s ^ 9) +
        2227431716613161 / 1154487209164800000 * (t ^ 3 * s ^ 8) +
        9563846561287019 / 2308974418329600000 * (t ^ 4 * s ^ 7) +
        20248852295764663 / 3298534883328000000 * (t ^ 5 * s ^ 6) +
        225504566378432447 / 35184372088832000000 * (t ^ 6 * s ^ 5) +
        232224871388557447 / 49258120924364800000 * (t ^ 7 * s ^ 4) +
        1887245947086831451 / 788129934789836800000 * (t ^ 8 * s ^ 3) +
        2837150283421217489 / 3546584706554265600000 * (t ^ 9 * s ^ 2) +
        179565634036447916171 / 1134907106097364992000000 * (t ^ 10 * s) +
        15932020857945216811 / 1134907106097364992000000 * (t ^ 11) := by
    rw [atanP, atanQ, hv, hst]; ring
  have b : 1 / 125000 - (atanP v - atanQ v) = 15779657034347 / 2164663517184000000 * (s ^ 11) +
        149116308065317 / 2164663517184000000 * (t * s ^ 10) +
        1001282153013161 / 3463461627494400000 * (t ^ 2 * s ^ 9) +
        820414515581911 / 1154487209164800000 * (t ^ 3 * s ^ 8) +
        2627538367493269 / 2308974418329600000 * (t ^ 4 * s ^ 7) +
        4133917561795913 / 3298534883328000000 * (t ^ 5 * s ^ 6) +
        34578312102213697 / 35184372088832000000 * (t ^ 6 * s ^ 5) +
        27858007092088697 / 49258120924364800000 * (t ^ 7 * s ^ 4) +
        193417080758337701 / 788129934789836800000 * (t ^ 8 * s ^ 3) +
        283844258346536239 / 3546584706554265600000 * (t ^ 9 * s ^ 2) +
        20178016636688322421 / 1134907106097364992000000 * (t ^ 10 * s) +
        2226492839612623061 / 1134907106097364992000000 * (t ^ 11) := by
    rw [atanP, atanQ, hv, hst]; ring
  have a0 : 0 ≤ 1 / 125000 + (atanP v - atanQ v) := by rw [a]; positivity
  have b0 : 0 ≤ 1 / 125000 - (atanP v - atanQ v) := by rw [b]; positivity
  rw [abs_le]
  constructor <;> linarith

theorem atanPQ_5 (v : ℝ) (h0 : 5 / 8 ≤ v) (h1 : v ≤ 3 / 4) : |atanP v - atanQ v| ≤ 1 / 125000 := by
  obtain ⟨t, ht, hv⟩ : ∃ t : ℝ, 0 ≤ t ∧ v = 5 / 8 + t * (1 / 8) := ⟨(v - (5 / 8)) * (8), mul_nonneg (by linarith) (by norm_num), by ring⟩
  obtain ⟨s, hs, hst⟩ : ∃ s : ℝ, 0 ≤ s ∧ s = 1 - t := ⟨1 - t, by linarith, rfl⟩
  have a : 1 / 125000 + (atanP v - atanQ v) = 15932020857945216811 / 1134907106097364992000000 * (s ^ 11) +
        170938824838346853671 / 1134907106097364992000000 * (t * s ^ 10) +
        20540499967844474287 / 28372677652434124800000 * (t ^ 2 * s ^ 9) +
        38880081243803945449 / 18915118434956083200000 * (t ^ 3 * s ^ 8) +
        9046376939421279331 / 2364389804369510400000 * (t ^ 4 * s ^ 7) +
        8269071166848054331 / 1688849860263936000000 * (t ^ 5 * s ^ 6) +
        231683872928906483 / 52776558133248000000 * (t ^ 6 * s ^ 5) +
        1627979076193004989 / 591097451092377600000 * (t ^ 7 * s ^ 4) +
        349904743615847341 / 295548725546188800000 * (t ^ 8 * s ^ 3) +
        32719042818925399 / 98516241848729600000 * (t ^ 9 * s ^ 2) +
        3376563624670753 / 61572651155456000000 * (t ^ 10 * s) +
        500354494234171 / 123145302310912000000 * (t ^ 11) := by
    rw [atanP, atanQ, hv, hst]; ring
  have b : 1 / 125000 - (atanP v - atanQ v) = 2226492839612623061 / 1134907106097364992000000 * (s ^ 11) +
        28804825834789384921 / 1134907106097364992000000 * (t * s ^ 10) +
        4427456366297555537 / 28372677652434124800000 * (t ^ 2 * s ^ 9) +
        11055831424480114199 / 18915118434956083200000 * (t ^ 3 * s ^ 8) +
        3437601227649735581 / 2364389804369510400000 * (t ^ 4 * s ^ 7) +
        4214907000222960581 / 1688849860263936000000 * (t ^ 5 * s ^ 6) +
        158440444792062733 / 52776558133248000000 * (t ^ 6 * s ^ 5) +
        1493015465574748739 / 591097451092377600000 * (t ^ 7 * s ^ 4) +
        430343891826091091 / 295548725546188800000 * (t ^ 8 * s ^ 3) +
        53975250007956649 / 98516241848729600000 * (t ^ 9 * s ^ 2) +
        7460222978689503 / 61572651155456000000 * (t ^ 10 * s) +
        1469970342740421 / 123145302310912000000 * (t ^ 11) := by
    rw [atanP, atanQ, hv, hst]; ring
  have a0 : 0 ≤ 1 / 125000 + (atanP v - atanQ v) := by rw [a]; positivity
  have b0 : 0 ≤ 1 / 125000 - (atanP v - atanQ v) := by rw [b]; positivity
  rw [abs_le]
  constructor <;> linarith

theorem atanPQ_6 (v : ℝ) (h0 : 3 / 4 ≤ v) (h1 : v ≤ 7 / 8) : |atanP v - atanQ v| ≤ 1 / 125000 := by
  obtain ⟨t, ht, hv⟩ : ∃ t : ℝ, 0 ≤ t ∧ v = 3 / 4 + t * (1 / 8) := ⟨(v - (3 / 4)) * (8), mul_nonneg (by linarith) (by norm_num), by ring⟩
  obtain ⟨s, hs, hst⟩ : ∃ s : ℝ, 0 ≤ s ∧ s = 1 - t := ⟨1 - t, by linarith, rfl⟩
  have a : 1 / 125000 + (atanP v - atanQ v) = 500354494234171 / 123145302310912000000 * (s ^ 11) +
        265916976488141 / 7696581394432000000 * (t * s ^ 10) +
        12731397814675399 / 98516241848729600000 * (t ^ 2 * s ^ 9) +
        84695634624447341 / 295548725546188800000 * (t ^ 3 * s ^ 8) +
        262854212942604989 / 591097451092377600000 * (t ^ 4 * s ^ 7) +
        119173404897941557 / 211106232532992000000 * (t ^ 5 * s ^ 6) +
        361772828239734777 / 562949953421312000000 * (t ^ 6 * s ^ 5) +
        69584963108899611 / 112589990684262400000 * (t ^ 7 * s ^ 4) +
        396464760317464069 / 900719925474099200000 * (t ^ 8 * s ^ 3) +
        418267165972992583 / 2026619832316723200000 * (t ^ 9 * s ^ 2) +
        9051415581452771953 / 162129586585337856000000 * (t ^ 10 * s) +
        1061718719767555973 / 162129586585337856000000 * (t ^ 11) := by
    rw [atanP, atanQ, hv, hst]; ring
  have b : 1 / 125000 - (atanP v - atanQ v) = 1469970342740421 / 123145302310912000000 * (s ^ 11) +
        1088681348931891 / 7696581394432000000 * (t * s ^ 10) +
        73962895012206649 / 98516241848729600000 * (t ^ 2 * s ^ 9) +
        695553000817491091 / 295548725546188800000 * (t ^ 3 * s ^ 8) +
        2858140328825148739 / 591097451092377600000 * (t ^ 4 * s ^ 7) +
        1441323865985935307 / 211106232532992000000 * (t ^ 5 * s ^ 6) +
        3799553227450603527 / 562949953421312000000 * (t ^ 6 * s ^ 5) +
        524890187704005861 / 112589990684262400000 * (t ^ 7 * s ^ 4) +
        1981435842934157819 / 900719925474099200000 * (t ^ 8 * s ^ 3) +
        1365158286465723833 / 2026619832316723200000 * (t ^ 9 * s ^ 2) +
        19483391657566690703 / 162129586585337856000000 * (t ^ 10 * s) +
        1532354665597849723 / 162129586585337856000000 * (t ^ 11) := by
    rw [atanP, atanQ, hv, hst]; ring
  have a0 : 0 ≤ 1 / 125000 + (atanP v - atanQ v) := by rw [a]; positivity
  have b0 : 0 ≤ 1 / 125000 - (atanP v - atanQ v) := by rw [b]; positivity
  rw [abs_le]
  constructor <;> linarith

theorem atanPQ_7 (v : ℝ) (h0 : 7 / 8 ≤ v) (h1 : v ≤ 1) : |atanP v - atanQ v| ≤ 1 / 125000 := by
  obtain ⟨t, ht, hv⟩ : ∃ t : ℝ, 0 ≤ t ∧ v = 7 / 8 + t * (1 / 8) := ⟨(v - (7 / 8)) * (8), mul_nonneg (by linarith) (by norm_num), by ring⟩
  obtain ⟨s, hs, hst⟩ : ∃ s : ℝ, 0 ≤ s ∧ s = 1 - t := ⟨1 - t, by linarith, rfl⟩
  have a : 1 / 125000 + (atanP v - atanQ v) = 1061718719767555973 / 162129586585337856000000 * (s ^ 11) +
        14306396253433459453 / 162129586585337856000000 * (t * s ^ 10) +
        2150279499941157041 / 4053239664633446400000 * (t ^ 2 * s ^ 9) +
        1263145698231836333 / 675539944105574400000 * (t ^ 3 * s ^ 8) +
        90278316581956763 / 21110623253299200000 * (t ^ 4 * s ^ 7) +
        170969765315471 / 25769803776000000 * (t ^ 5 * s ^ 6) +
        3891769516308173 / 549755813888000000 * (t ^ 6 * s ^ 5) +
        1977940377018149 / 384829069721600000 * (t ^ 7 * s ^ 4) +
        117326147894689 / 48103633715200000 * (t ^ 8 * s ^ 3) +
        298446061809067 / 432932703436800000 * (t ^ 9 * s ^ 2) +
        198526200159067 / 2164663517184000000 * (t ^ 10 * s) +
        3476188378097 / 2164663517184000000 * (t ^ 11) := by
    rw [atanP, atanQ, hv, hst]; ring
  have b : 1 / 125000 - (atanP v - atanQ v) = 1532354665597849723 / 162129586585337856000000 * (s ^ 11) +
        14228410985586003203 / 162129586585337856000000 * (t * s ^ 10) +
        1416571404936275791 / 4053239664633446400000 * (t ^ 2 * s ^ 9) +
        520279754206880083 / 675539944105574400000 * (t ^ 3 * s ^ 8) +
        21185774195463013 / 21110623253299200000 * (t ^ 4 * s ^ 7) +
        19520624196721 / 25769803776000000 * (t ^ 5 * s ^ 6) +
        172025459951923 / 549755813888000000 * (t ^ 6 * s ^ 5) +
        53957111111899 / 384829069721600000 * (t ^ 7 * s ^ 4) +
        9667445113439 / 48103633715200000 * (t ^ 8 * s ^ 3) +
        82534717215317 / 432932703436800000 * (t ^ 9 * s ^ 2) +
        182454578865317 / 2164663517184000000 * (t ^ 10 * s) +
        31158427896847 / 2164663517184000000 * (t ^ 11) := by
    rw [atanP, atanQ, hv, hst]; ring
  have a0 : 0 ≤ 1 / 125000 + (atanP v - atanQ v) := by rw [a]; positivity
  have b0 : 0 ≤ 1 / 125000 - (atanP v - atanQ v) := by rw [b]; positivity
  rw [abs_le]
  constructor <;> linarith

/-- the polynomials are close to each other -/
theorem atanPQ (v : ℝ) (h0 : 0 ≤ v) (h1 : v ≤ 1) : |atanP v - atanQ v| ≤ 1 / 125000 := by
  rcases le_total v (1 / 8) with g0 | g0
  · exact atanPQ_0 v h0 g0
  rcases le_total v (1 / 4) with g1 | g1
  · exact atanPQ_1 v g0 g1
  rcases le_total v (3 / 8) with g2 | g2
  · exact atanPQ_2 v g1 g2
  rcases le_total v (1 / 2) with g3 | g3
  · exact atanPQ_3 v g2 g3
  rcases le_total v (5 / 8) with g4 | g4
  · exact atanPQ_4 v g3 g4
  rcases le_total v (3 / 4) with g5 | g5
  · exact atanPQ_5 v g4 g5
  rcases le_total v (7 / 8) with g6 | g6
  · exact atanPQ_6 v g5 g6
  exact atanPQ_7 v g6 h1

theorem hasDerivAt_atanP (v : ℝ) : HasDerivAt atanP (atanP' v) v := by
  unfold atanP atanP'
  have h (c : ℝ) (n : ℕ) : HasDerivAt (fun v : ℝ => c * v ^ n) (c * (n * v ^ (n - 1))) v := (hasDerivAt_pow n v).const_mul c
  have h1 (c : ℝ) : HasDerivAt (fun v : ℝ => c * v) (c * 1) v := (hasDerivAt_id v).const_mul c
  refine HasDerivAt.congr_deriv (((((((hasDerivAt_const v _).fun_add (h1 _)).fun_add (h _ 2)).fun_add (h _ 3)).fun_add (h _ 4)).fun_add (h _ 5)).fun_add (h _ 6)) ?_
  norm_num
  ring

theorem hasDerivAt_atanQ (v : ℝ) : HasDerivAt atanQ (atanQ' v) v := by
  unfold atanQ atanQ'
  have h (c : ℝ) (n : ℕ) : HasDerivAt (fun v : ℝ => c * v ^ n) (c * (n * v ^ (n - 1))) v := (hasDerivAt_pow n v).const_mul c
  have h1 (c : ℝ) : HasDerivAt (fun v : ℝ => c * v) (c * 1) v := (hasDerivAt_id v).const_mul c
  refine HasDerivAt.congr_deriv ((((((((((h1 _).fun_add (h _ 2)).fun_add (h _ 3)).fun_add (h _ 4)).fun_add (h _ 5)).fun_add (h _ 6)).fun_add (h _ 7)).fun_add (h _ 8)).fun_add (h _ 9)).fun_add (h _ 10)) ?_
  norm_num
  ring

/-- the polynomial follows small changes of its argument -/
theorem atanP_lipschitz (u v : ℝ) (hu0 : -1 / 16 ≤ u) (hu1 : u ≤ 17 / 16) (hv0 : -1 / 16 ≤ v) (hv1 : v ≤ 17 / 16) : |atanP u - atanP v| ≤ 101 / 100 * |u - v| := by
  have := Convex.norm_image_sub_le_of_norm_hasDerivWithin_le (f := atanP) (f' := atanP') (C := 101 / 100) (s := Set.Icc (-1 / 16) (17 / 16)) (x := v) (y := u)
    (fun z _ => (hasDerivAt_atanP z).hasDerivWithinAt) (fun z hz => by rw [Real.norm_eq_abs]; exact atanP_slope z hz.1 hz.2) (convex_Icc _ _) ⟨hv0, hv1⟩ ⟨hu0, hu1⟩
  rwa [Real.norm_eq_abs, Real.norm_eq_abs] at this

theorem atanQ_close (v : ℝ) (h0 : 0 ≤ v) (h1 : v ≤ 1) : |atanQ v - Real.arctan v| ≤ 1 / 1000000 := by
  have := Convex.norm_image_sub_le_of_norm_hasDerivWithin_le (f := fun z => atanQ z - Real.arctan z) (f' := fun z => atanQ' z - 1 / (1 + z ^ 2))
    (C := 1 / 1000000) (s := Set.Icc 0 1) (x := 0) (y := v)
    (fun z _ => ((hasDerivAt_atanQ z).sub (Real.hasDerivAt_arctan z)).hasDerivWithinAt) (fun z hz => by
      rw [Real.norm_eq_abs]
      have hp : (1 : ℝ) ≤ 1 + z ^ 2 := by nlinarith [sq_nonneg z]
      have e : atanQ' z - 1 / (1 + z ^ 2) = (atanQ' z * (1 + z ^ 2) - 1) / (1 + z ^ 2) := by field_simp
      rw [e, abs_div, abs_of_pos (by linarith : (0 : ℝ) < 1 + z ^ 2)]
      exact (div_le_self (abs_nonneg _) hp).trans (atanQ_deriv z hz.1 hz.2)) (convex_Icc _ _) ⟨le_rfl, zero_le_one⟩ ⟨h0, h1⟩
  have e0 : atanQ 0 = 0 := by simp [atanQ]
  rw [Real.norm_eq_abs, Real.norm_eq_abs, e0, Real.arctan_zero, sub_zero, sub_zero, sub_zero, abs_of_nonneg h0] at this
  linarith

/-- the polynomial is within `9·10⁻⁶` of the arc tangent -/
theorem atanP_close (v : ℝ) (h0 : 0 ≤ v) (h1 : v ≤ 1) : |atanP v - Real.arctan v| ≤ 9 / 1000000 := by
  have a := atanPQ v h0 h1
  have b := atanQ_close v h0 h1
  have e : atanP v - Real.arctan v = (atanP v - atanQ v) + (atanQ v - Real.arctan v) := by ring
  rw [e]
  refine (abs_add_le _ _).trans ?_
  linarith

end Spu.Props
