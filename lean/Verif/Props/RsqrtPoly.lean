import Verif.Props.LogApprox
import Mathlib.Tactic.Linarith
import Mathlib.Tactic.Ring
import Mathlib.Tactic.Positivity

set_option autoImplicit false

/-! # C91: the polynomials for the reciprocal square root -/

namespace Spu.Props
open Spu.Model Spu.Model.PolyApprox

/-- the polynomial of `rsqrt_init_guess` with the exact coefficients -/
def rsqFull (v : ℚ) : ℚ := 4344093 / 1048576 + (-8115949 / 524288) * v ^ 1 + (2521267 / 65536) * v ^ 2 + (-1634011 / 32768) * v ^ 3 + (6823457 / 262144) * v ^ 4

/-- nonnegative coefficients in the Bernstein basis of degree 24 -/
theorem rsqFull_sq (v : ℚ) (h0 : 1 / 4 ≤ v) (h1 : v ≤ 1 / 2) : |rsqFull v ^ 2 * v - 1| ≤ 3 / 10000 := by
  obtain ⟨t, ht, hv⟩ : ∃ t : ℚ, 0 ≤ t ∧ v = 1 / 4 + t / 4 := ⟨4 * v - 1, by linarith, by ring⟩
  obtain ⟨s, hs, hst⟩ : ∃ s : ℚ, 0 ≤ s ∧ s = 1 - t := ⟨1 - t, by linarith, rfl⟩
  have a : 3 / 10000 + (rsqFull v ^ 2 * v - 1) = 1708260845368497 / 11258999068426240000 * (s ^ 24) +
      132338144078249553 / 11258999068426240000 * (t * s ^ 23) +
      1797615859665857047 / 11258999068426240000 * (t ^ 2 * s ^ 22) +
      11941445662671768553 / 11258999068426240000 * (t ^ 3 * s ^ 21) +
      48281128008589069747 / 11258999068426240000 * (t ^ 4 * s ^ 20) +
      129528293496352894613 / 11258999068426240000 * (t ^ 5 * s ^ 19) +
      242097809929866221587 / 11258999068426240000 * (t ^ 6 * s ^ 18) +
      350434171772356288813 / 11258999068426240000 * (t ^ 7 * s ^ 17) +
      565294838662782653337 / 11258999068426240000 * (t ^ 8 * s ^ 16) +
      1364759957777331543363 / 11258999068426240000 * (t ^ 9 * s ^ 15) +
      3413181646499662940357 / 11258999068426240000 * (t ^ 10 * s ^ 14) +
      6767744813684802252443 / 11258999068426240000 * (t ^ 11 * s ^ 13) +
      10231303804511580746657 / 11258999068426240000 * (t ^ 12 * s ^ 12) +
      11927731711675010039943 / 11258999068426240000 * (t ^ 13 * s ^ 11) +
      10847764936949604947857 / 11258999068426240000 * (t ^ 14 * s ^ 10) +
      7724196289881426570863 / 11258999068426240000 * (t ^ 15 * s ^ 9) +
      2141047354846879714481 / 5629499534213120000 * (t ^ 16 * s ^ 8) +
      113612540944050188793 / 703687441776640000 * (t ^ 17 * s ^ 7) +
      8942014702723482183 / 175921860444160000 * (t ^ 18 * s ^ 6) +
      3940410615254409109 / 351843720888320000 * (t ^ 19 * s ^ 5) +
      273081939542282623 / 175921860444160000 * (t ^ 20 * s ^ 4) +
      2568997274649869 / 21990232555520000 * (t ^ 21 * s ^ 3) +
      508857483088487 / 43980465111040000 * (t ^ 22 * s ^ 2) +
      163029562428863 / 43980465111040000 * (t ^ 23 * s) +
      10211059647281 / 21990232555520000 * (t ^ 24) := by
    rw [rsqFull, hv, hst]; ring
  have b : 3 / 10000 - (rsqFull v ^ 2 * v - 1) = 5047138595687247 / 11258999068426240000 * (s ^ 24) +
      29791442507088303 / 11258999068426240000 * (t * s ^ 23) +
      66874386065528297 / 11258999068426240000 * (t ^ 2 * s ^ 22) +
      1731482806025057303 / 11258999068426240000 * (t ^ 3 * s ^ 21) +
      23501746452069265997 / 11258999068426240000 * (t ^ 4 * s ^ 20) +
      157603204346280448363 / 11258999068426240000 * (t ^ 5 * s ^ 19) +
      667151933238472697837 / 11258999068426240000 * (t ^ 6 * s ^ 18) +
      1987636596374800932563 / 11258999068426240000 * (t ^ 7 * s ^ 17) +
      4403105543649926442087 / 11258999068426240000 * (t ^ 8 * s ^ 16) +
      7467951833000817959613 / 11258999068426240000 * (t ^ 9 * s ^ 15) +
      9835886039667561314107 / 11258999068426240000 * (t ^ 10 * s ^ 14) +
      10094704968709846798693 / 11258999068426240000 * (t ^ 11 * s ^ 13) +
      8036350126415955725407 / 11258999068426240000 * (t ^ 12 * s ^ 12) +
      4934718070719639011193 / 11258999068426240000 * (t ^ 13 * s ^ 11) +
      2401302749217619306607 / 11258999068426240000 * (t ^ 14 * s ^ 10) +
      1108515500896722932113 / 11258999068426240000 * (t ^ 15 * s ^ 9) +
      343152836309474833231 / 5629499534213120000 * (t ^ 16 * s ^ 8) +
      32516882065147137543 / 703687441776640000 * (t ^ 17 * s ^ 7) +
      5265012534281813433 / 175921860444160000 * (t ^ 18 * s ^ 6) +
      5032448692327882859 / 351843720888320000 * (t ^ 19 * s ^ 5) +
      848525473905503873 / 175921860444160000 * (t ^ 20 * s ^ 4) +
      24135941140773619 / 21990232555520000 * (t ^ 21 * s ^ 3) +
      6774307539299737 / 43980465111040000 * (t ^ 22 * s ^ 2) +
      470289135170113 / 43980465111040000 * (t ^ 23 * s) +
      2983079886031 / 21990232555520000 * (t ^ 24) := by
    rw [rsqFull, hv, hst]; ring
  have a0 : 0 ≤ 3 / 10000 + (rsqFull v ^ 2 * v - 1) := by rw [a]; positivity
  have b0 : 0 ≤ 3 / 10000 - (rsqFull v ^ 2 * v - 1) := by rw [b]; positivity
  rw [abs_le]
  constructor <;> linarith

/-- the polynomial of `rsqrt_init_guess` with the exact coefficients -/
def rsqLow (v : ℚ) : ℚ := 13360955 / 4194304 + (-1557581 / 262144) * v ^ 1 + (5030963 / 1048576) * v ^ 2

/-- nonnegative coefficients in the Bernstein basis of degree 24 -/
theorem rsqLow_sq (v : ℚ) (h0 : 1 / 4 ≤ v) (h1 : v ≤ 1 / 2) : |rsqLow v ^ 2 * v - 1| ≤ 12 / 1000 := by
  obtain ⟨t, ht, hv⟩ : ∃ t : ℚ, 0 ≤ t ∧ v = 1 / 4 + t / 4 := ⟨4 * v - 1, by linarith, by ring⟩
  obtain ⟨s, hs, hst⟩ : ∃ s : ℚ, 0 ≤ s ∧ s = 1 - t := ⟨1 - t, by linarith, rfl⟩
  have a : 12 / 1000 + (rsqLow v ^ 2 * v - 1) = 1680922737332061 / 140737488355328000 * (s ^ 24) +
      56425787397568089 / 140737488355328000 * (t * s ^ 23) +
      779014212613727461 / 140737488355328000 * (t ^ 2 * s ^ 22) +
      6315888548613149339 / 140737488355328000 * (t ^ 3 * s ^ 21) +
      17367217734863895843 / 70368744177664000 * (t ^ 4 * s ^ 20) +
      34958189514154919061 / 35184372088832000 * (t ^ 5 * s ^ 19) +
      107837077900097054089 / 35184372088832000 * (t ^ 6 * s ^ 18) +
      262462962698543925711 / 35184372088832000 * (t ^ 7 * s ^ 17) +
      1027563979566543009303 / 70368744177664000 * (t ^ 8 * s ^ 16) +
      1637809276996550954247 / 70368744177664000 * (t ^ 9 * s ^ 15) +
      2140477598518622425683 / 70368744177664000 * (t ^ 10 * s ^ 14) +
      2299572914177369991517 / 70368744177664000 * (t ^ 11 * s ^ 13) +
      63346676785072012969 / 2199023255552000 * (t ^ 12 * s ^ 12) +
      728239331965824856821 / 35184372088832000 * (t ^ 13 * s ^ 11) +
      421177163315073046029 / 35184372088832000 * (t ^ 14 * s ^ 10) +
      192174266302991206811 / 35184372088832000 * (t ^ 15 * s ^ 9) +
      269034724798557579981 / 140737488355328000 * (t ^ 16 * s ^ 8) +
      70684388104161951969 / 140737488355328000 * (t ^ 17 * s ^ 7) +
      15391482480470517981 / 140737488355328000 * (t ^ 18 * s ^ 6) +
      4547112415890887619 / 140737488355328000 * (t ^ 19 * s ^ 5) +
      1023548176514736593 / 70368744177664000 * (t ^ 20 * s ^ 4) +
      48285369716473529 / 8796093022208000 * (t ^ 21 * s ^ 3) +
      2951304090537849 / 2199023255552000 * (t ^ 22 * s ^ 2) +
      416549154356601 / 2199023255552000 * (t ^ 23 * s) +
      13056380910437 / 1099511627776000 * (t ^ 24) := by
    rw [rsqLow, hv, hst]; ring
  have b : 12 / 1000 - (rsqLow v ^ 2 * v - 1) = 1696776983195811 / 140737488355328000 * (s ^ 24) +
      24639005895100839 / 140737488355328000 * (t * s ^ 23) +
      153230910251965211 / 140737488355328000 * (t ^ 2 * s ^ 22) +
      520575685735263589 / 140737488355328000 * (t ^ 3 * s ^ 21) +
      578500880300688093 / 70368744177664000 * (t ^ 4 * s ^ 20) +
      933247716174248811 / 35184372088832000 * (t ^ 5 * s ^ 19) +
      5819139995945310839 / 35184372088832000 * (t ^ 6 * s ^ 18) +
      29795883319850726961 / 35184372088832000 * (t ^ 7 * s ^ 17) +
      214536116011634264553 / 70368744177664000 * (t ^ 8 * s ^ 16) +
      570368670697986421497 / 70368744177664000 * (t ^ 9 * s ^ 15) +
      1171789323023183637933 / 70368744177664000 * (t ^ 10 * s ^ 14) +
      1916039531421292271267 / 70368744177664000 * (t ^ 11 * s ^ 13) +
      79369369550299365719 / 2199023255552000 * (t ^ 12 * s ^ 12) +
      1379566890833506274571 / 35184372088832000 * (t ^ 13 * s ^ 11) +
      1234956297455829985779 / 35184372088832000 * (t ^ 14 * s ^ 10) +
      911914707544277481061 / 35184372088832000 * (t ^ 15 * s ^ 9) +
      2215165466357796967731 / 140737488355328000 * (t ^ 16 * s ^ 8) +
      1098350995969416658719 / 140737488355328000 * (t ^ 17 * s ^ 7) +
      439233389103698941731 / 140737488355328000 * (t ^ 18 * s ^ 6) +
      139018636505425783869 / 140737488355328000 * (t ^ 19 * s ^ 5) +
      16922170438649847343 / 70368744177664000 * (t ^ 20 * s ^ 4) +
      378993644930302279 / 8796093022208000 * (t ^ 21 * s ^ 3) +
      11615025954238599 / 2199023255552000 * (t ^ 22 * s ^ 2) +
      850088240841351 / 2199023255552000 * (t ^ 23 * s) +
      13331898156187 / 1099511627776000 * (t ^ 24) := by
    rw [rsqLow, hv, hst]; ring
  have a0 : 0 ≤ 12 / 1000 + (rsqLow v ^ 2 * v - 1) := by rw [a]; positivity
  have b0 : 0 ≤ 12 / 1000 - (rsqLow v ^ 2 * v - 1) := by rw [b]; positivity
  rw [abs_le]
  constructor <;> linarith

theorem rsqFull_ge (v : ℚ) (h0 : 1 / 4 ≤ v) (h1 : v ≤ 1 / 2) : 1 ≤ rsqFull v := by
  obtain ⟨t, ht, hv⟩ : ∃ t : ℚ, 0 ≤ t ∧ v = 1 / 4 + t / 4 := ⟨4 * v - 1, by linarith, by ring⟩
  obtain ⟨s, hs, hst⟩ : ∃ s : ℚ, 0 ≤ s ∧ s = 1 - t := ⟨1 - t, by linarith, rfl⟩
  have a : rsqFull v - 1 = 67098913 / 67108864 * (s ^ 4) + 25229529 / 8388608 * (t * s ^ 3) + 31043999 / 8388608 * (t ^ 2 * s ^ 2) + 2103069 / 1048576 * (t ^ 3 * s) + 1737825 / 4194304 * (t ^ 4) := by
    rw [rsqFull, hv, hst]; ring
  have a0 : 0 ≤ rsqFull v - 1 := by rw [a]; positivity
  linarith

theorem rsqLow_ge (v : ℚ) (h0 : 1 / 4 ≤ v) (h1 : v ≤ 1 / 2) : 1 ≤ rsqLow v := by
  obtain ⟨t, ht, hv⟩ : ∃ t : ℚ, 0 ≤ t ∧ v = 1 / 4 + t / 4 := ⟨4 * v - 1, by linarith, by ring⟩
  obtain ⟨s, hs, hst⟩ : ∃ s : ℚ, 0 ≤ s ∧ s = 1 - t := ⟨1 - t, by linarith, rfl⟩
  have a : rsqLow v - 1 = 16776271 / 16777216 * (s ^ 2) + 4673293 / 4194304 * (t * s) + 868483 / 2097152 * (t ^ 2) := by
    rw [rsqLow, hv, hst]; ring
  have a0 : 0 ≤ rsqLow v - 1 := by rw [a]; positivity
  linarith

/-- the polynomial in use, the square of its relative error, and the factors of the errors of the truncation -/
def rsqP (lower : Bool) (v : ℚ) : ℚ := if lower then rsqLow v else rsqFull v
def rsqEps (lower : Bool) : ℚ := if lower then 12 / 1000 else 3 / 10000
def rsqW (lower : Bool) : ℚ := if lower then 23 else 593

theorem rsqP_sq (lower : Bool) (v : ℚ) (h0 : 1 / 4 ≤ v) (h1 : v ≤ 1 / 2) : |rsqP lower v ^ 2 * v - 1| ≤ rsqEps lower ∧ 1 ≤ rsqP lower v := by
  cases lower
  · exact ⟨rsqFull_sq v h0 h1, rsqFull_ge v h0 h1⟩
  · exact ⟨rsqLow_sq v h0 h1, rsqLow_ge v h0 h1⟩

theorem rsq_coef (lower : Bool) : coefSum (rsqrtCoeffs lower).1.tail ≤ 130 ∧ 1 + coefWeight (rsqrtCoeffs lower).1.tail ≤ rsqW lower ∧
    (rsqrtCoeffs lower).1 = (0, 0) :: (rsqrtCoeffs lower).1.tail ∧ (rsqrtCoeffs lower).1.tail ≠ [] ∧ (rsqrtCoeffs lower).1.tail.length ≤ 4 := by
  cases lower <;> decide +kernel

theorem rsqP_eq (lower : Bool) (v : ℚ) : rsqP lower v = evalPoly (rsqrtCoeffs lower).1.tail v + coef (rsqrtCoeffs lower).2 := by
  cases lower
  · simp only [rsqP, rsqFull, evalPoly, rsqrtCoeffs, List.tail_cons, List.length_cons, List.length_nil, Finset.sum_range_succ, Finset.sum_range_zero,
      List.getD_cons_succ, List.getD_cons_zero, coef, Nat.reduceAdd, Bool.false_eq_true, if_false]
    push_cast
    ring
  · simp only [rsqP, rsqLow, evalPoly, rsqrtCoeffs, List.tail_cons, List.length_cons, List.length_nil, Finset.sum_range_succ, Finset.sum_range_zero,
      List.getD_cons_succ, List.getD_cons_zero, coef, Nat.reduceAdd, if_true]
    push_cast
    ring

end Spu.Props
