import Verif.Props.AtanPoly

set_option autoImplicit false

/-! # C92: the polynomial for the arc tangent with many fraction bits -/

namespace Spu.Props

/-- the polynomial of `AtanApproxLocal` for more than 20 fraction bits, with the exact coefficients -/
noncomputable def atanPL (v : ℝ) : ℝ := 16446219 / 2251799813685248 + (1048575 / 1048576) * v + (606877 / 17179869184) * v ^ 2 + (-5602423 / 16777216) * v ^ 3 + (2940209 / 536870912) * v ^ 4 + (11396473 / 67108864) * v ^ 5 + (3533681 / 33554432) * v ^ 6 + (-3179781 / 8388608) * v ^ 7 + (5527531 / 16777216) * v ^ 8 + (-4487745 / 33554432) * v ^ 9 + (2955899 / 134217728) * v ^ 10

/-- its derivative -/
noncomputable def atanPL' (v : ℝ) : ℝ := 1048575 / 1048576 + (606877 / 8589934592) * v + (-16807269 / 16777216) * v ^ 2 + (2940209 / 134217728) * v ^ 3 + (56982365 / 67108864) * v ^ 4 + (10601043 / 16777216) * v ^ 5 + (-22258467 / 8388608) * v ^ 6 + (5527531 / 2097152) * v ^ 7 + (-40389705 / 33554432) * v ^ 8 + (14779495 / 67108864) * v ^ 9

/-- a polynomial closer to the arc tangent, and its derivative -/
noncomputable def atanQL (v : ℝ) : ℝ := (17179869035 / 17179869184) * v + (170187 / 137438953472) * v ^ 2 + (-8590907675 / 25769803776) * v ^ 3 + (133788265 / 274877906944) * v ^ 4 + (33802057109 / 171798691840) * v ^ 5 + (1625562789 / 137438953472) * v ^ 6 + (-9833443833 / 60129542144) * v ^ 7 + (-548792159 / 137438953472) * v ^ 8 + (128945087293 / 618475290624) * v ^ 9 + (-34604173797 / 171798691840) * v ^ 10 + (63503864815 / 755914244096) * v ^ 11 + (-1902796001 / 137438953472) * v ^ 12
noncomputable def atanQL' (v : ℝ) : ℝ := 17179869035 / 17179869184 + (170187 / 68719476736) * v + (-8590907675 / 8589934592) * v ^ 2 + (133788265 / 68719476736) * v ^ 3 + (33802057109 / 34359738368) * v ^ 4 + (4876688367 / 68719476736) * v ^ 5 + (-9833443833 / 8589934592) * v ^ 6 + (-548792159 / 17179869184) * v ^ 7 + (128945087293 / 68719476736) * v ^ 8 + (-34604173797 / 17179869184) * v ^ 9 + (63503864815 / 68719476736) * v ^ 10 + (-5708388003 / 34359738368) * v ^ 11

theorem atanPL_slope_0 (v : ℝ) (h0 : -1 / 16 ≤ v) (h1 : v ≤ 1 / 4) : |atanPL' v| ≤ 101 / 100 := by
  obtain ⟨t, ht, hv⟩ : ∃ t : ℝ, 0 ≤ t ∧ v = -1 / 16 + t * (5 / 16) := ⟨(v - (-1 / 16)) * (16 / 5), mul_nonneg (by linarith) (by norm_num), by ring⟩
  obtain ⟨s, hs, hst⟩ : ∃ s : ℝ, 0 ≤ s ∧ s = 1 - t := ⟨1 - t, by linarith, rfl⟩
  have a : 101 / 100 + (atanPL' v) = 231286224975814184401 / 115292150460684697600 * (s ^ 9) +
        521517983971022943871 / 28823037615171174400 * (t * s ^ 8) +
        130486643986167998249 / 1801439850948198400 * (t ^ 2 * s ^ 7) +
        76076222685124140739 / 450359962737049600 * (t ^ 3 * s ^ 6) +
        56948265484575619023 / 225179981368524800 * (t ^ 4 * s ^ 5) +
        14190729972262752537 / 56294995342131200 * (t ^ 5 * s ^ 4) +
        1177189967998559701 / 7036874417766400 * (t ^ 6 * s ^ 3) +
        125403208379627151 / 1759218604441600 * (t ^ 7 * s ^ 2) +
        31136404327516569 / 1759218604441600 * (t ^ 8 * s) +
        858136477308679 / 439804651110400 * (t ^ 9) := by
    rw [atanPL', hv, hst]; ring
  have b : 101 / 100 - (atanPL' v) = 1603918954768904751 / 115292150460684697600 * (s ^ 9) +
        2484839872789006721 / 28823037615171174400 * (t * s ^ 8) +
        514061974784989399 / 1801439850948198400 * (t ^ 2 * s ^ 7) +
        340855792098435389 / 450359962737049600 * (t ^ 3 * s ^ 6) +
        364543373341313073 / 225179981368524800 * (t ^ 4 * s ^ 5) +
        137472242216480487 / 56294995342131200 * (t ^ 5 * s ^ 4) +
        16826883208043051 / 7036874417766400 * (t ^ 6 * s ^ 3) +
        2527168535366001 / 1759218604441600 * (t ^ 7 * s ^ 2) +
        846189901231719 / 1759218604441600 * (t ^ 8 * s) +
        30268917934329 / 439804651110400 * (t ^ 9) := by
    rw [atanPL', hv, hst]; ring
  have a0 : 0 ≤ 101 / 100 + (atanPL' v) := by rw [a]; positivity
  have b0 : 0 ≤ 101 / 100 - (atanPL' v) := by rw [b]; positivity
  rw [abs_le]
  constructor <;> linarith

theorem atanPL_slope_1 (v : ℝ) (h0 : 1 / 4 ≤ v) (h1 : v ≤ 17 / 16) : |atanPL' v| ≤ 101 / 100 := by
  obtain ⟨t, ht, hv⟩ : ∃ t : ℝ, 0 ≤ t ∧ v = 1 / 4 + t * (13 / 16) := ⟨(v - (1 / 4)) * (16 / 13), mul_nonneg (by linarith) (by norm_num), by ring⟩
  obtain ⟨s, hs, hst⟩ : ∃ s : ℝ, 0 ≤ s ∧ s = 1 - t := ⟨1 - t, by linarith, rfl⟩
  have a : 101 / 100 + (atanPL' v) = 858136477308679 / 439804651110400 * (s ^ 9) +
        30259836207661719 / 1759218604441600 * (t * s ^ 8) +
        117720352014387951 / 1759218604441600 * (t ^ 2 * s ^ 7) +
        1063180765624131451 / 7036874417766400 * (t ^ 3 * s ^ 6) +
        12317334538634587737 / 56294995342131200 * (t ^ 4 * s ^ 5) +
        47572593391203054273 / 225179981368524800 * (t ^ 5 * s ^ 4) +
        61300912180756983139 / 450359962737049600 * (t ^ 6 * s ^ 3) +
        101749981547595906599 / 1801439850948198400 * (t ^ 7 * s ^ 2) +
        394825389369356060671 / 28823037615171174400 * (t ^ 8 * s) +
        170601832800711712351 / 115292150460684697600 * (t ^ 9) := by
    rw [atanPL', hv, hst]; ring
  have b : 101 / 100 - (atanPL' v) = 30268917934329 / 439804651110400 * (s ^ 9) +
        1722758021086569 / 1759218604441600 * (t * s ^ 8) +
        10210024900605201 / 1759218604441600 * (t ^ 2 * s ^ 7) +
        130836085582471301 / 7036874417766400 * (t ^ 3 * s ^ 6) +
        2010867675844645287 / 56294995342131200 * (t ^ 4 * s ^ 5) +
        9740215466713877823 / 225179981368524800 * (t ^ 5 * s ^ 4) +
        15116166296465592989 / 450359962737049600 * (t ^ 6 * s ^ 3) +
        29250724413357081049 / 1801439850948198400 * (t ^ 7 * s ^ 2) +
        129177434474455889921 / 28823037615171174400 * (t ^ 8 * s) +
        62288311129871376801 / 115292150460684697600 * (t ^ 9) := by
    rw [atanPL', hv, hst]; ring
  have a0 : 0 ≤ 101 / 100 + (atanPL' v) := by rw [a]; positivity
  have b0 : 0 ≤ 101 / 100 - (atanPL' v) := by rw [b]; positivity
  rw [abs_le]
  constructor <;> linarith

/-- the slope -/
theorem atanPL_slope (v : ℝ) (h0 : -1 / 16 ≤ v) (h1 : v ≤ 17 / 16) : |atanPL' v| ≤ 101 / 100 := by
  rcases le_total v (1 / 4) with g0 | g0
  · exact atanPL_slope_0 v h0 g0
  exact atanPL_slope_1 v g0 h1

theorem atanQL_deriv_0 (v : ℝ) (h0 : 0 ≤ v) (h1 : v ≤ 1 / 8) : |atanQL' v * (1 + v ^ 2) - 1| ≤ 3 / 50000000 := by
  obtain ⟨t, ht, hv⟩ : ∃ t : ℝ, 0 ≤ t ∧ v = 0 + t * (1 / 8) := ⟨(v - (0)) * (8), mul_nonneg (by linarith) (by norm_num), by ring⟩
  obtain ⟨s, hs, hst⟩ : ∃ s : ℝ, 0 ≤ s ∧ s = 1 - t := ⟨1 - t, by linarith, rfl⟩
  have a : 3 / 50000000 + (atanQL' v * (1 + v ^ 2) - 1) = 344450059 / 6710886400000000 * (s ^ 13) +
        209770521419 / 214748364800000000 * (t * s ^ 12) +
        2554718522653 / 429496729600000000 * (t ^ 2 * s ^ 11) +
        66817950492613 / 3435973836800000000 * (t ^ 3 * s ^ 10) +
        456604864019029 / 10995116277760000000 * (t ^ 4 * s ^ 9) +
        7131456269764397 / 109951162777600000000 * (t ^ 5 * s ^ 8) +
        279784759995754897 / 3518437208883200000000 * (t ^ 6 * s ^ 7) +
        4429614997614500227 / 56294995342131200000000 * (t ^ 7 * s ^ 6) +
        27905814026106923237 / 450359962737049600000000 * (t ^ 8 * s ^ 5) +
        3359347281085057443 / 90071992547409920000000 * (t ^ 9 * s ^ 4) +
        117229453079926135051 / 7205759403792793600000000 * (t ^ 10 * s ^ 3) +
        552815181726568056643 / 115292150460684697600000000 * (t ^ 11 * s ^ 2) +
        1566848595322875885423 / 1844674407370955161600000000 * (t ^ 12 * s) +
        502729078826014004409 / 7378697629483820646400000000 * (t ^ 13) := by
    rw [atanQL', hv, hst]; ring
  have b : 3 / 50000000 - (atanQL' v * (1 + v ^ 2) - 1) = 460856309 / 6710886400000000 * (s ^ 13) +
        125236927669 / 214748364800000000 * (t * s ^ 12) +
        1465370866403 / 429496729600000000 * (t ^ 2 * s ^ 11) +
        51104671586363 / 3435973836800000000 * (t ^ 3 * s ^ 10) +
        486776112612779 / 10995116277760000000 * (t ^ 4 * s ^ 9) +
        9849401309608147 / 109951162777600000000 * (t ^ 5 * s ^ 8) +
        444731830057473647 / 3518437208883200000000 * (t ^ 6 * s ^ 7) +
        7162650443237156477 / 56294995342131200000000 * (t ^ 7 * s ^ 6) +
        41647778619003016987 / 450359962737049600000000 * (t ^ 8 * s ^ 5) +
        4368829679482713693 / 90071992547409920000000 * (t ^ 9 * s ^ 4) +
        130072209658242541301 / 7205759403792793600000000 * (t ^ 10 * s ^ 3) +
        526319346585440712893 / 115292150460684697600000000 * (t ^ 11 * s ^ 2) +
        1310843480175814166673 / 1844674407370955161600000000 * (t ^ 12 * s) +
        382714636712044473159 / 7378697629483820646400000000 * (t ^ 13) := by
    rw [atanQL', hv, hst]; ring
  have a0 : 0 ≤ 3 / 50000000 + (atanQL' v * (1 + v ^ 2) - 1) := by rw [a]; positivity
  have b0 : 0 ≤ 3 / 50000000 - (atanQL' v * (1 + v ^ 2) - 1) := by rw [b]; positivity
  rw [abs_le]
  constructor <;> linarith

theorem atanQL_deriv_1 (v : ℝ) (h0 : 1 / 8 ≤ v) (h1 : v ≤ 1 / 4) : |atanQL' v * (1 + v ^ 2) - 1| ≤ 3 / 50000000 := by
  obtain ⟨t, ht, hv⟩ : ∃ t : ℝ, 0 ≤ t ∧ v = 1 / 8 + t * (1 / 8) := ⟨(v - (1 / 8)) * (8), mul_nonneg (by linarith) (by norm_num), by ring⟩
  obtain ⟨s, hs, hst⟩ : ∃ s : ℝ, 0 ≤ s ∧ s = 1 - t := ⟨1 - t, by linarith, rfl⟩
  have a : 3 / 50000000 + (atanQL' v * (1 + v ^ 2) - 1) = 502729078826014004409 / 7378697629483820646400000000 * (s ^ 13) +
        3401780834092430286471 / 3689348814741910323200000000 * (t * s ^ 12) +
        5226772384152580000019 / 922337203685477580800000000 * (t ^ 2 * s ^ 11) +
        9623301975632910533889 / 461168601842738790400000000 * (t ^ 3 * s ^ 10) +
        4732285494952910931007 / 92233720368547758080000000 * (t ^ 4 * s ^ 9) +
        20533591028230731025469 / 230584300921369395200000000 * (t ^ 5 * s ^ 8) +
        3244803149099215131849 / 28823037615171174400000000 * (t ^ 6 * s ^ 7) +
        1519578877991410104987 / 14411518807585587200000000 * (t ^ 7 * s ^ 6) +
        2121741694555692696543 / 28823037615171174400000000 * (t ^ 8 * s ^ 5) +
        109829528745413166301 / 2882303761517117440000000 * (t ^ 9 * s ^ 4) +
        51607215812821465963 / 3602879701896396800000000 * (t ^ 10 * s ^ 3) +
        6716769949047334137 / 1801439850948198400000000 * (t ^ 11 * s ^ 2) +
        1090465376307172877 / 1801439850948198400000000 * (t ^ 12 * s) +
        41769366120242827 / 900719925474099200000000 * (t ^ 13) := by
    rw [atanQL', hv, hst]; ring
  have b : 3 / 50000000 - (atanQL' v * (1 + v ^ 2) - 1) = 382714636712044473159 / 7378697629483820646400000000 * (s ^ 13) +
        2353603316904949817721 / 3689348814741910323200000000 * (t * s ^ 12) +
        3406303842343490156269 / 922337203685477580800000000 * (t ^ 2 * s ^ 11) +
        6204004439609884752639 / 461168601842738790400000000 * (t ^ 3 * s ^ 10) +
        3181367712668486712257 / 92233720368547758080000000 * (t ^ 4 * s ^ 9) +
        15077848406065558369219 / 230584300921369395200000000 * (t ^ 5 * s ^ 8) +
        2690436756616833100599 / 28823037615171174400000000 * (t ^ 6 * s ^ 7) +
        1448041074866614011237 / 14411518807585587200000000 * (t ^ 7 * s ^ 6) +
        2329688234731343477793 / 28823037615171174400000000 * (t ^ 8 * s ^ 5) +
        137472133992755510051 / 2882303761517117440000000 * (t ^ 9 * s ^ 4) +
        72043615556262872213 / 3602879701896396800000000 * (t ^ 10 * s ^ 3) +
        10144707055827802887 / 1801439850948198400000000 * (t ^ 11 * s ^ 2) +
        1719780791172016627 / 1801439850948198400000000 * (t ^ 12 * s) +
        66317024936649077 / 900719925474099200000000 * (t ^ 13) := by
    rw [atanQL', hv, hst]; ring
  have a0 : 0 ≤ 3 / 50000000 + (atanQL' v * (1 + v ^ 2) - 1) := by rw [a]; positivity
  have b0 : 0 ≤ 3 / 50000000 - (atanQL' v * (1 + v ^ 2) - 1) := by rw [b]; positivity
  rw [abs_le]
  constructor <;> linarith

theorem atanQL_deriv_2 (v : ℝ) (h0 : 1 / 4 ≤ v) (h1 : v ≤ 3 / 8) : |atanQL' v * (1 + v ^ 2) - 1| ≤ 3 / 50000000 := by
  obtain ⟨t, ht, hv⟩ : ∃ t : ℝ, 0 ≤ t ∧ v = 1 / 4 + t * (1 / 8) := ⟨(v - (1 / 4)) * (8), mul_nonneg (by linarith) (by norm_num), by ring⟩
  obtain ⟨s, hs, hst⟩ : ∃ s : ℝ, 0 ≤ s ∧ s = 1 - t := ⟨1 - t, by linarith, rfl⟩
  have a : 3 / 50000000 + (atanQL' v * (1 + v ^ 2) - 1) = 41769366120242827 / 900719925474099200000000 * (s ^ 13) +
        1081541661945454127 / 1801439850948198400000000 * (t * s ^ 12) +
        6609685376706709137 / 1801439850948198400000000 * (t ^ 2 * s ^ 11) +
        50438181987536309713 / 3602879701896396800000000 * (t ^ 3 * s ^ 10) +
        106759553053781916301 / 2882303761517117440000000 * (t ^ 4 * s ^ 9) +
        2054937924865095040293 / 28823037615171174400000000 * (t ^ 5 * s ^ 8) +
        1469985804369169479987 / 14411518807585587200000000 * (t ^ 6 * s ^ 7) +
        3146118046126247163099 / 28823037615171174400000000 * (t ^ 7 * s ^ 6) +
        20050970241458968525469 / 230584300921369395200000000 * (t ^ 8 * s ^ 5) +
        4682807637933977024757 / 92233720368547758080000000 * (t ^ 9 * s ^ 4) +
        9719774915433732408889 / 461168601842738790400000000 * (t ^ 10 * s ^ 3) +
        5428537584712163593769 / 922337203685477580800000000 * (t ^ 11 * s ^ 2) +
        3655632024912749036471 / 3689348814741910323200000000 * (t ^ 12 * s) +
        560710154555317910659 / 7378697629483820646400000000 * (t ^ 13) := by
    rw [atanQL', hv, hst]; ring
  have b : 3 / 50000000 - (atanQL' v * (1 + v ^ 2) - 1) = 66317024936649077 / 900719925474099200000000 * (s ^ 13) +
        1728704505533735377 / 1801439850948198400000000 * (t * s ^ 12) +
        10251791628168427887 / 1801439850948198400000000 * (t ^ 2 * s ^ 11) +
        73212649381548028463 / 3602879701896396800000000 * (t ^ 3 * s ^ 10) +
        140542109684386760051 / 2882303761517117440000000 * (t ^ 4 * s ^ 9) +
        2396492004421941134043 / 28823037615171174400000000 * (t ^ 5 * s ^ 8) +
        1497634148488854636237 / 14411518807585587200000000 * (t ^ 6 * s ^ 7) +
        2789121859589801069349 / 28823037615171174400000000 * (t ^ 7 * s ^ 6) +
        15560469192837320869219 / 230584300921369395200000000 * (t ^ 8 * s ^ 5) +
        3230845569687420618507 / 92233720368547758080000000 * (t ^ 9 * s ^ 4) +
        6107531499809062877639 / 461168601842738790400000000 * (t ^ 10 * s ^ 3) +
        3204538641783906562519 / 922337203685477580800000000 * (t ^ 11 * s ^ 2) +
        2099752126084631067721 / 3689348814741910323200000000 * (t ^ 12 * s) +
        324733560982740566909 / 7378697629483820646400000000 * (t ^ 13) := by
    rw [atanQL', hv, hst]; ring
  have a0 : 0 ≤ 3 / 50000000 + (atanQL' v * (1 + v ^ 2) - 1) := by rw [a]; positivity
  have b0 : 0 ≤ 3 / 50000000 - (atanQL' v * (1 + v ^ 2) - 1) := by rw [b]; positivity
  rw [abs_le]
  constructor <;> linarith

theorem atanQL_deriv_3 (v : ℝ) (h0 : 3 / 8 ≤ v) (h1 : v ≤ 1 / 2) : |atanQL' v * (1 + v ^ 2) - 1| ≤ 3 / 50000000 := by
  obtain ⟨t, ht, hv⟩ : ∃ t : ℝ, 0 ≤ t ∧ v = 3 / 8 + t * (1 / 8) := ⟨(v - (3 / 8)) * (8), mul_nonneg (by linarith) (by norm_num), by ring⟩
  obtain ⟨s, hs, hst⟩ : ∃ s : ℝ, 0 ≤ s ∧ s = 1 - t := ⟨1 - t, by linarith, rfl⟩
  have a : 3 / 50000000 + (atanQL' v * (1 + v ^ 2) - 1) = 560710154555317910659 / 7378697629483820646400000000 * (s ^ 13) +
        227099999019148987631 / 230584300921369395200000000 * (t * s ^ 12) +
        1340610365723266972661 / 230584300921369395200000000 * (t ^ 2 * s ^ 11) +
        298119806115306566977 / 14411518807585587200000000 * (t ^ 3 * s ^ 10) +
        285329865319759379477 / 5764607523034234880000000 * (t ^ 4 * s ^ 9) +
        75816994579810330849 / 900719925474099200000000 * (t ^ 5 * s ^ 8) +
        47222549894178111191 / 450359962737049600000000 * (t ^ 6 * s ^ 7) +
        2735010368600804801 / 28147497671065600000000 * (t ^ 7 * s ^ 6) +
        7575191205265695653 / 112589990684262400000000 * (t ^ 8 * s ^ 5) +
        24336653025420981 / 703687441776640000000 * (t ^ 9 * s ^ 4) +
        45450704684513837 / 3518437208883200000000 * (t ^ 10 * s ^ 3) +
        735375873051461 / 219902325555200000000 * (t ^ 11 * s ^ 2) +
        237910796225487 / 439804651110400000000 * (t ^ 12 * s) +
        569283330207 / 13743895347200000000 * (t ^ 13) := by
    rw [atanQL', hv, hst]; ring
  have b : 3 / 50000000 - (atanQL' v * (1 + v ^ 2) - 1) = 324733560982740566909 / 7378697629483820646400000000 * (s ^ 13) +
        132611510418187268881 / 230584300921369395200000000 * (t * s ^ 12) +
        817658690900750566411 / 230584300921369395200000000 * (t ^ 2 * s ^ 11) +
        196483519361030785727 / 14411518807585587200000000 * (t ^ 3 * s ^ 10) +
        209273460156577973227 / 5764607523034234880000000 * (t ^ 4 * s ^ 9) +
        63290190710409549599 / 900719925474099200000000 * (t ^ 5 * s ^ 8) +
        45515573632635142441 / 450359962737049600000000 * (t ^ 6 * s ^ 7) +
        3061122351825023551 / 28147497671065600000000 * (t ^ 7 * s ^ 6) +
        9813206956011789403 / 112589990684262400000000 * (t ^ 8 * s ^ 5) +
        36039729479014731 / 703687441776640000000 * (t ^ 9 * s ^ 4) +
        75302060324357587 / 3518437208883200000000 * (t ^ 10 * s ^ 3) +
        1322909894145211 / 219902325555200000000 * (t ^ 11 * s ^ 2) +
        448184459506737 / 439804651110400000000 * (t ^ 12 * s) +
        1079984111457 / 13743895347200000000 * (t ^ 13) := by
    rw [atanQL', hv, hst]; ring
  have a0 : 0 ≤ 3 / 50000000 + (atanQL' v * (1 + v ^ 2) - 1) := by rw [a]; positivity
  have b0 : 0 ≤ 3 / 50000000 - (atanQL' v * (1 + v ^ 2) - 1) := by rw [b]; positivity
  rw [abs_le]
  constructor <;> linarith

theorem atanQL_deriv_4 (v : ℝ) (h0 : 1 / 2 ≤ v) (h1 : v ≤ 5 / 8) : |atanQL' v * (1 + v ^ 2) - 1| ≤ 3 / 50000000 := by
  obtain ⟨t, ht, hv⟩ : ∃ t : ℝ, 0 ≤ t ∧ v = 1 / 2 + t * (1 / 8) := ⟨(v - (1 / 2)) * (8), mul_nonneg (by linarith) (by norm_num), by ring⟩
  obtain ⟨s, hs, hst⟩ : ∃ s : ℝ, 0 ≤ s ∧ s = 1 - t := ⟨1 - t, by linarith, rfl⟩
  have a : 3 / 50000000 + (atanQL' v * (1 + v ^ 2) - 1) = 569283330207 / 13743895347200000000 * (s ^ 13) +
        235732934506737 / 439804651110400000000 * (t * s ^ 12) +
        722308702738961 / 219902325555200000000 * (t ^ 2 * s ^ 11) +
        44379187436857587 / 3518437208883200000000 * (t ^ 3 * s ^ 10) +
        23726833180108481 / 703687441776640000000 * (t ^ 4 * s ^ 9) +
        7410270391986789403 / 112589990684262400000000 * (t ^ 5 * s ^ 8) +
        2696218580742992301 / 28147497671065600000000 * (t ^ 6 * s ^ 7) +
        47066218136247642441 / 450359962737049600000000 * (t ^ 7 * s ^ 6) +
        76545753868944705849 / 900719925474099200000000 * (t ^ 8 * s ^ 5) +
        291988110261062973227 / 5764607523034234880000000 * (t ^ 9 * s ^ 4) +
        309058955868142504477 / 14411518807585587200000000 * (t ^ 10 * s ^ 3) +
        1405819644751713066411 / 230584300921369395200000000 * (t ^ 11 * s ^ 2) +
        240330757810891175131 / 230584300921369395200000000 * (t ^ 12 * s) +
        597022773818865566909 / 7378697629483820646400000000 * (t ^ 13) := by
    rw [atanQL', hv, hst]; ring
  have b : 3 / 50000000 - (atanQL' v * (1 + v ^ 2) - 1) = 1079984111457 / 13743895347200000000 * (s ^ 13) +
        450362321225487 / 439804651110400000000 * (t * s ^ 12) +
        1335977064457711 / 219902325555200000000 * (t ^ 2 * s ^ 11) +
        76373577572013837 / 3518437208883200000000 * (t ^ 3 * s ^ 10) +
        36649549324327231 / 703687441776640000000 * (t ^ 4 * s ^ 9) +
        9978127769290695653 / 112589990684262400000000 * (t ^ 5 * s ^ 8) +
        3099914139682836051 / 28147497671065600000000 * (t ^ 6 * s ^ 7) +
        45671905390565611191 / 450359962737049600000000 * (t ^ 7 * s ^ 6) +
        62561431421275174599 / 900719925474099200000000 * (t ^ 8 * s ^ 5) +
        202615215215274379477 / 5764607523034234880000000 * (t ^ 9 * s ^ 4) +
        185544369608194848227 / 14411518807585587200000000 * (t ^ 10 * s ^ 3) +
        752449411872304472661 / 230584300921369395200000000 * (t ^ 11 * s ^ 2) +
        119380751626445081381 / 230584300921369395200000000 * (t ^ 12 * s) +
        288420941719192910659 / 7378697629483820646400000000 * (t ^ 13) := by
    rw [atanQL', hv, hst]; ring
  have a0 : 0 ≤ 3 / 50000000 + (atanQL' v * (1 + v ^ 2) - 1) := by rw [a]; positivity
  have b0 : 0 ≤ 3 / 50000000 - (atanQL' v * (1 + v ^ 2) - 1) := by rw [b]; positivity
  rw [abs_le]
  constructor <;> linarith

theorem atanQL_deriv_5 (v : ℝ) (h0 : 5 / 8 ≤ v) (h1 : v ≤ 3 / 4) : |atanQL' v * (1 + v ^ 2) - 1| ≤ 3 / 50000000 := by
  obtain ⟨t, ht, hv⟩ : ∃ t : ℝ, 0 ≤ t ∧ v = 5 / 8 + t * (1 / 8) := ⟨(v - (5 / 8)) * (8), mul_nonneg (by linarith) (by norm_num), by ring⟩
  obtain ⟨s, hs, hst⟩ : ∃ s : ℝ, 0 ≤ s ∧ s = 1 - t := ⟨1 - t, by linarith, rfl⟩
  have a : 3 / 50000000 + (atanQL' v * (1 + v ^ 2) - 1) = 597022773818865566909 / 7378697629483820646400000000 * (s ^ 13) +
        3916003934670993567721 / 3689348814741910323200000000 * (t * s ^ 12) +
        5835414008097056562519 / 922337203685477580800000000 * (t ^ 2 * s ^ 11) +
        10445794313242050377639 / 461168601842738790400000000 * (t ^ 3 * s ^ 10) +
        5005795308435905618507 / 92233720368547758080000000 * (t ^ 4 * s ^ 9) +
        21176572612148208369219 / 230584300921369395200000000 * (t ^ 5 * s ^ 8) +
        3254950860472601069349 / 28823037615171174400000000 * (t ^ 6 * s ^ 7) +
        1474785249999017136237 / 14411518807585587200000000 * (t ^ 7 * s ^ 6) +
        1977621653165716134043 / 28823037615171174400000000 * (t ^ 8 * s ^ 5) +
        97623810702454260051 / 2882303761517117440000000 * (t ^ 9 * s ^ 4) +
        43624675362798028463 / 3602879701896396800000000 * (t ^ 10 * s ^ 3) +
        5432491761455927887 / 1801439850948198400000000 * (t ^ 11 * s ^ 2) +
        858592615208735377 / 1801439850948198400000000 * (t ^ 12 * s) +
        32851702549149077 / 900719925474099200000000 * (t ^ 13) := by
    rw [atanQL', hv, hst]; ring
  have b : 3 / 50000000 - (atanQL' v * (1 + v ^ 2) - 1) = 288420941719192910659 / 7378697629483820646400000000 * (s ^ 13) +
        1839380216326386536471 / 3689348814741910323200000000 * (t * s ^ 12) +
        2797662218399013593769 / 922337203685477580800000000 * (t ^ 2 * s ^ 11) +
        5381512102000744908889 / 461168601842738790400000000 * (t ^ 3 * s ^ 10) +
        2907857899185492024757 / 92233720368547758080000000 * (t ^ 4 * s ^ 9) +
        14434866822148081025469 / 230584300921369395200000000 * (t ^ 5 * s ^ 8) +
        2680289045243447163099 / 28823037615171174400000000 * (t ^ 6 * s ^ 7) +
        1492834702859006979987 / 14411518807585587200000000 * (t ^ 7 * s ^ 6) +
        2473808276121320040293 / 28823037615171174400000000 * (t ^ 8 * s ^ 5) +
        149677852035714416301 / 2882303761517117440000000 * (t ^ 9 * s ^ 4) +
        80026156006286309713 / 3602879701896396800000000 * (t ^ 10 * s ^ 3) +
        11428985243419209137 / 1801439850948198400000000 * (t ^ 11 * s ^ 2) +
        1951653552270454127 / 1801439850948198400000000 * (t ^ 12 * s) +
        75234688507742827 / 900719925474099200000000 * (t ^ 13) := by
    rw [atanQL', hv, hst]; ring
  have a0 : 0 ≤ 3 / 50000000 + (atanQL' v * (1 + v ^ 2) - 1) := by rw [a]; positivity
  have b0 : 0 ≤ 3 / 50000000 - (atanQL' v * (1 + v ^ 2) - 1) := by rw [b]; positivity
  rw [abs_le]
  constructor <;> linarith

theorem atanQL_deriv_6 (v : ℝ) (h0 : 3 / 4 ≤ v) (h1 : v ≤ 7 / 8) : |atanQL' v * (1 + v ^ 2) - 1| ≤ 3 / 50000000 := by
  obtain ⟨t, ht, hv⟩ : ∃ t : ℝ, 0 ≤ t ∧ v = 3 / 4 + t * (1 / 8) := ⟨(v - (3 / 4)) * (8), mul_nonneg (by linarith) (by norm_num), by ring⟩
  obtain ⟨s, hs, hst⟩ : ∃ s : ℝ, 0 ≤ s ∧ s = 1 - t := ⟨1 - t, by linarith, rfl⟩
  have a : 3 / 50000000 + (atanQL' v * (1 + v ^ 2) - 1) = 32851702549149077 / 900719925474099200000000 * (s ^ 13) +
        849695917347016627 / 1801439850948198400000000 * (t * s ^ 12) +
        5325731387115302887 / 1801439850948198400000000 * (t ^ 2 * s ^ 11) +
        42726843040862872213 / 3602879701896396800000000 * (t ^ 3 * s ^ 10) +
        96704427421623010051 / 2882303761517117440000000 * (t ^ 4 * s ^ 9) +
        2003366122638118477793 / 28823037615171174400000000 * (t ^ 5 * s ^ 8) +
        1537770514516776511237 / 14411518807585587200000000 * (t ^ 6 * s ^ 7) +
        3495694456007783100599 / 28823037615171174400000000 * (t ^ 7 * s ^ 6) +
        23301352280692445869219 / 230584300921369395200000000 * (t ^ 8 * s ^ 5) +
        5582616192707871712257 / 92233720368547758080000000 * (t ^ 9 * s ^ 4) +
        11622420604460872252639 / 461168601842738790400000000 * (t ^ 10 * s ^ 3) +
        6351080944376190156269 / 922337203685477580800000000 * (t ^ 11 * s ^ 2) +
        4079045415618912317721 / 3689348814741910323200000000 * (t ^ 12 * s) +
        582865665651769473159 / 7378697629483820646400000000 * (t ^ 13) := by
    rw [atanQL', hv, hst]; ring
  have b : 3 / 50000000 - (atanQL' v * (1 + v ^ 2) - 1) = 75234688507742827 / 900719925474099200000000 * (s ^ 13) +
        1960550250132172877 / 1801439850948198400000000 * (t * s ^ 12) +
        11535745617759834137 / 1801439850948198400000000 * (t ^ 2 * s ^ 11) +
        80923988328221465963 / 3602879701896396800000000 * (t ^ 3 * s ^ 10) +
        150597235316545666301 / 2882303761517117440000000 * (t ^ 4 * s ^ 9) +
        2448063806648917696543 / 28823037615171174400000000 * (t ^ 5 * s ^ 8) +
        1429849438341247604987 / 14411518807585587200000000 * (t ^ 6 * s ^ 7) +
        2439545449708265131849 / 28823037615171174400000000 * (t ^ 7 * s ^ 6) +
        12310087153603843525469 / 230584300921369395200000000 * (t ^ 8 * s ^ 5) +
        2331037014913525931007 / 92233720368547758080000000 * (t ^ 9 * s ^ 4) +
        4204885810781923033889 / 461168601842738790400000000 * (t ^ 10 * s ^ 3) +
        2281995282119880000019 / 922337203685477580800000000 * (t ^ 11 * s ^ 2) +
        1676338735378467786471 / 3689348814741910323200000000 * (t ^ 12 * s) +
        302578049886289004409 / 7378697629483820646400000000 * (t ^ 13) := by
    rw [atanQL', hv, hst]; ring
  have a0 : 0 ≤ 3 / 50000000 + (atanQL' v * (1 + v ^ 2) - 1) := by rw [a]; positivity
  have b0 : 0 ≤ 3 / 50000000 - (atanQL' v * (1 + v ^ 2) - 1) := by rw [b]; positivity
  rw [abs_le]
  constructor <;> linarith

theorem atanQL_deriv_7 (v : ℝ) (h0 : 7 / 8 ≤ v) (h1 : v ≤ 1) : |atanQL' v * (1 + v ^ 2) - 1| ≤ 3 / 50000000 := by
  obtain ⟨t, ht, hv⟩ : ∃ t : ℝ, 0 ≤ t ∧ v = 7 / 8 + t * (1 / 8) := ⟨(v - (7 / 8)) * (8), mul_nonneg (by linarith) (by norm_num), by ring⟩
  obtain ⟨s, hs, hst⟩ : ∃ s : ℝ, 0 ≤ s ∧ s = 1 - t := ⟨1 - t, by linarith, rfl⟩
  have a : 3 / 50000000 + (atanQL' v * (1 + v ^ 2) - 1) = 582865665651769473159 / 7378697629483820646400000000 * (s ^ 13) +
        1749104118927045416673 / 1844674407370955161600000000 * (t * s ^ 12) +
        576071176385215712893 / 115292150460684697600000000 * (t ^ 2 * s ^ 11) +
        54537197316063653463 / 3602879701896396800000000 * (t ^ 3 * s ^ 10) +
        5250989164280193011 / 180143985094819840000000 * (t ^ 4 * s ^ 9) +
        8570180269816156931 / 225179981368524800000000 * (t ^ 5 * s ^ 8) +
        2133235142501218977 / 56294995342131200000000 * (t ^ 6 * s ^ 7) +
        260126555745025419 / 7036874417766400000000 * (t ^ 7 * s ^ 6) +
        35114509431162051 / 879609302220800000000 * (t ^ 8 * s ^ 5) +
        408998739644029 / 10995116277760000000 * (t ^ 9 * s ^ 4) +
        322413971111077 / 13743895347200000000 * (t ^ 10 * s ^ 3) +
        14765849481237 / 1717986918400000000 * (t ^ 11 * s ^ 2) +
        38595387443 / 26843545600000000 * (t ^ 12 * s) +
        423665743 / 13421772800000000 * (t ^ 13) := by
    rw [atanQL', hv, hst]; ring
  have b : 3 / 50000000 - (atanQL' v * (1 + v ^ 2) - 1) = 302578049886289004409 / 7378697629483820646400000000 * (s ^ 13) +
        1128587956571644635423 / 1844674407370955161600000000 * (t * s ^ 12) +
        503063351926793056643 / 115292150460684697600000000 * (t ^ 2 * s ^ 11) +
        69113634053020684713 / 3602879701896396800000000 * (t ^ 3 * s ^ 10) +
        10205364756855349261 / 180143985094819840000000 * (t ^ 4 * s ^ 9) +
        26206616052738813181 / 225179981368524800000000 * (t ^ 5 * s ^ 8) +
        9459030298350437727 / 56294995342131200000000 * (t ^ 6 * s ^ 7) +
        1188906624361431669 / 7036874417766400000000 * (t ^ 7 * s ^ 6) +
        100732351203818301 / 879609302220800000000 * (t ^ 8 * s ^ 5) +
        534382236987779 / 10995116277760000000 * (t ^ 9 * s ^ 4) +
        149276517204827 / 13743895347200000000 * (t ^ 10 * s ^ 3) +
        1314508074987 / 1717986918400000000 * (t ^ 11 * s ^ 2) +
        3280543693 / 26843545600000000 * (t ^ 12 * s) +
        1186946993 / 13421772800000000 * (t ^ 13) := by
    rw [atanQL', hv, hst]; ring
  have a0 : 0 ≤ 3 / 50000000 + (atanQL' v * (1 + v ^ 2) - 1) := by rw [a]; positivity
  have b0 : 0 ≤ 3 / 50000000 - (atanQL' v * (1 + v ^ 2) - 1) := by rw [b]; positivity
  rw [abs_le]
  constructor <;> linarith

/-- the derivative of `atanQL` is close to that of the arc tangent -/
theorem atanQL_deriv (v : ℝ) (h0 : 0 ≤ v) (h1 : v ≤ 1) : |atanQL' v * (1 + v ^ 2) - 1| ≤ 3 / 50000000 := by
  rcases le_total v (1 / 8) with g0 | g0
  · exact atanQL_deriv_0 v h0 g0
  rcases le_total v (1 / 4) with g1 | g1
  · exact atanQL_deriv_1 v g0 g1
  rcases le_total v (3 / 8) with g2 | g2
  · exact atanQL_deriv_2 v g1 g2
  rcases le_total v (1 / 2) with g3 | g3
  · exact atanQL_deriv_3 v g2 g3
  rcases le_total v (5 / 8) with g4 | g4
  · exact atanQL_deriv_4 v g3 g4
  rcases le_total v (3 / 4) with g5 | g5
  · exact atanQL_deriv_5 v g4 g5
  rcases le_total v (7 / 8) with g6 | g6
  · exact atanQL_deriv_6 v g5 g6
  exact atanQL_deriv_7 v g6 h1

theorem atanPQL_0 (v : ℝ) (h0 : 0 ≤ v) (h1 : v ≤ 1 / 4) : |atanPL v - atanQL v| ≤ 1 / 20000000 := by
  obtain ⟨t, ht, hv⟩ : ∃ t : ℝ, 0 ≤ t ∧ v = 0 + t * (1 / 4) := ⟨(v - (0)) * (4), mul_nonneg (by linarith) (by norm_num), by ring⟩
  obtain ⟨s, hs, hst⟩ : ∃ s : ℝ, 0 ≤ s ∧ s = 1 - t := ⟨1 - t, by linarith, rfl⟩
  have a : 1 / 20000000 + (atanPL v - atanQL v) = 10080953881583 / 175921860444160000000 * (s ^ 13) +
        89490800460579 / 175921860444160000000 * (t * s ^ 12) +
        331180761381737 / 87960930222080000000 * (t ^ 2 * s ^ 11) +
        4087856615199107 / 263882790666240000000 * (t ^ 3 * s ^ 10) +
        4038950769699107 / 105553116266496000000 * (t ^ 4 * s ^ 9) +
        11287369534097321 / 175921860444160000000 * (t ^ 5 * s ^ 8) +
        1750507150904241 / 21990232555520000000 * (t ^ 6 * s ^ 7) +
        2940334318008203 / 38482906972160000000 * (t ^ 7 * s ^ 6) +
        280659077967928113 / 4925812092436480000000 * (t ^ 8 * s ^ 5) +
        570548889915434351 / 17732923532771328000000 * (t ^ 9 * s ^ 4) +
        2333301622854471779 / 177329235327713280000000 * (t ^ 10 * s ^ 3) +
        18984157633329914857 / 5201657569612922880000000 * (t ^ 11 * s ^ 2) +
        76452329330520987553 / 124839781670710149120000000 * (t ^ 12 * s) +
        5859372022509523081 / 124839781670710149120000000 * (t ^ 13) := by
    rw [atanPL, atanQL, hv, hst]; ring
  have b : 1 / 20000000 - (atanPL v - atanQL v) = 7511232162833 / 175921860444160000000 * (s ^ 13) +
        139207618116829 / 175921860444160000000 * (t * s ^ 12) +
        354914494350487 / 87960930222080000000 * (t ^ 2 * s ^ 11) +
        3459191197855357 / 263882790666240000000 * (t ^ 3 * s ^ 10) +
        3508097043355357 / 105553116266496000000 * (t ^ 4 * s ^ 9) +
        11353773905066071 / 175921860444160000000 * (t ^ 5 * s ^ 8) +
        2023016755622991 / 21990232555520000000 * (t ^ 6 * s ^ 7) +
        3663332518414453 / 38482906972160000000 * (t ^ 7 * s ^ 6) +
        353292938328646863 / 4925812092436480000000 * (t ^ 8 * s ^ 5) +
        697355142677715601 / 17732923532771328000000 * (t ^ 9 * s ^ 4) +
        2738314507518128029 / 177329235327713280000000 * (t ^ 10 * s ^ 3) +
        21588771409650883607 / 5201657569612922880000000 * (t ^ 11 * s ^ 2) +
        85839386841402206303 / 124839781670710149120000000 * (t ^ 12 * s) +
        6624606144561491831 / 124839781670710149120000000 * (t ^ 13) := by
    rw [atanPL, atanQL, hv, hst]; ring
  have a0 : 0 ≤ 1 / 20000000 + (atanPL v - atanQL v) := by rw [a]; positivity
  have b0 : 0 ≤ 1 / 20000000 - (atanPL v - atanQL v) := by rw [b]; positivity
  rw [abs_le]
  constructor <;> linarith

theorem atanPQL_1 (v : ℝ) (h0 : 1 / 4 ≤ v) (h1 : v ≤ 1 / 2) : |atanPL v - atanQL v| ≤ 1 / 20000000 := by
  obtain ⟨t, ht, hv⟩ : ∃ t : ℝ, 0 ≤ t ∧ v = 1 / 4 + t * (1 / 4) := ⟨(v - (1 / 4)) * (4), mul_nonneg (by linarith) (by norm_num), by ring⟩
  obtain ⟨s, hs, hst⟩ : ∃ s : ℝ, 0 ≤ s ∧ s = 1 - t := ⟨1 - t, by linarith, rfl⟩
  have a : 1 / 20000000 + (atanPL v - atanQL v) = 5859372022509523081 / 124839781670710149120000000 * (s ^ 13) +
        75891343254726612553 / 124839781670710149120000000 * (t * s ^ 12) +
        18703664595432727357 / 5201657569612922880000000 * (t ^ 2 * s ^ 11) +
        18225217410828352357 / 1418633882621706240000000 * (t ^ 3 * s ^ 10) +
        4403688585213240433 / 141863388262170624000000 * (t ^ 4 * s ^ 9) +
        4254414716631115433 / 78812993478983680000000 * (t ^ 5 * s ^ 8) +
        345467466052846859 / 4925812092436480000000 * (t ^ 6 * s ^ 7) +
        341452705276284359 / 4925812092436480000000 * (t ^ 7 * s ^ 6) +
        256638319935553113 / 4925812092436480000000 * (t ^ 8 * s ^ 5) +
        259369447480240613 / 8866461766385664000000 * (t ^ 9 * s ^ 4) +
        16405100658971093 / 1385384650997760000000 * (t ^ 10 * s ^ 3) +
        16526598934908593 / 5079743720325120000000 * (t ^ 11 * s ^ 2) +
        66072559094243747 / 121913849287802880000000 * (t ^ 12 * s) +
        5035921352249519 / 121913849287802880000000 * (t ^ 13) := by
    rw [atanPL, atanQL, hv, hst]; ring
  have b : 1 / 20000000 - (atanPL v - atanQL v) = 6624606144561491831 / 124839781670710149120000000 * (s ^ 13) +
        86400372917196581303 / 124839781670710149120000000 * (t * s ^ 12) +
        21869264447548071107 / 5201657569612922880000000 * (t ^ 2 * s ^ 11) +
        22347711632152446107 / 1418633882621706240000000 * (t ^ 3 * s ^ 10) +
        5739543675531959183 / 141863388262170624000000 * (t ^ 4 * s ^ 9) +
        5888817544114084183 / 78812993478983680000000 * (t ^ 5 * s ^ 8) +
        499801889009253109 / 4925812092436480000000 * (t ^ 6 * s ^ 7) +
        503816649785815609 / 4925812092436480000000 * (t ^ 7 * s ^ 6) +
        377313696361021863 / 4925812092436480000000 * (t ^ 8 * s ^ 5) +
        374582568816334363 / 8866461766385664000000 * (t ^ 9 * s ^ 4) +
        23216900359564843 / 1385384650997760000000 * (t ^ 10 * s ^ 3) +
        23095402083627343 / 5079743720325120000000 * (t ^ 11 * s ^ 2) +
        92415444979899997 / 121913849287802880000000 * (t ^ 12 * s) +
        7155463576530769 / 121913849287802880000000 * (t ^ 13) := by
    rw [atanPL, atanQL, hv, hst]; ring
  have a0 : 0 ≤ 1 / 20000000 + (atanPL v - atanQL v) := by rw [a]; positivity
  have b0 : 0 ≤ 1 / 20000000 - (atanPL v - atanQL v) := by rw [b]; positivity
  rw [abs_le]
  constructor <;> linarith

theorem atanPQL_2 (v : ℝ) (h0 : 1 / 2 ≤ v) (h1 : v ≤ 3 / 4) : |atanPL v - atanQL v| ≤ 1 / 20000000 := by
  obtain ⟨t, ht, hv⟩ : ∃ t : ℝ, 0 ≤ t ∧ v = 1 / 2 + t * (1 / 4) := ⟨(v - (1 / 2)) * (4), mul_nonneg (by linarith) (by norm_num), by ring⟩
  obtain ⟨s, hs, hst⟩ : ∃ s : ℝ, 0 ≤ s ∧ s = 1 - t := ⟨1 - t, by linarith, rfl⟩
  have a : 1 / 20000000 + (atanPL v - atanQL v) = 5035921352249519 / 121913849287802880000000 * (s ^ 13) +
        64861396064243747 / 121913849287802880000000 * (t * s ^ 12) +
        15921017419908593 / 5079743720325120000000 * (t ^ 2 * s ^ 11) +
        7735385413118359 / 692692325498880000000 * (t ^ 3 * s ^ 10) +
        238329555145240613 / 8866461766385664000000 * (t ^ 4 * s ^ 9) +
        228392589793553113 / 4925812092436480000000 * (t ^ 5 * s ^ 8) +
        292666183380284359 / 4925812092436480000000 * (t ^ 6 * s ^ 7) +
        284447590915284359 / 4925812092436480000000 * (t ^ 7 * s ^ 6) +
        3371423614529115433 / 78812993478983680000000 * (t ^ 8 * s ^ 5) +
        1125524565616746811 / 47287796087390208000000 * (t ^ 9 * s ^ 4) +
        4531955478070784119 / 472877960873902080000000 * (t ^ 10 * s ^ 3) +
        4536801673828596619 / 1733885856537640960000000 * (t ^ 11 * s ^ 2) +
        5975882215828623617 / 13871086852301127680000000 * (t ^ 12 * s) +
        446833698475447009 / 13871086852301127680000000 * (t ^ 13) := by
    rw [atanPL, atanQL, hv, hst]; ring
  have b : 1 / 20000000 - (atanPL v - atanQL v) = 7155463576530769 / 121913849287802880000000 * (s ^ 13) +
        93626608009899997 / 121913849287802880000000 * (t * s ^ 12) +
        23700983598627343 / 5079743720325120000000 * (t ^ 2 * s ^ 11) +
        12075615096149609 / 692692325498880000000 * (t ^ 3 * s ^ 10) +
        395622461151334363 / 8866461766385664000000 * (t ^ 4 * s ^ 9) +
        405559426503021863 / 4925812092436480000000 * (t ^ 5 * s ^ 8) +
        552603171681815609 / 4925812092436480000000 * (t ^ 6 * s ^ 7) +
        560821764146815609 / 4925812092436480000000 * (t ^ 7 * s ^ 6) +
        6771808646216084183 / 78812993478983680000000 * (t ^ 8 * s ^ 5) +
        2255552854631653061 / 47287796087390208000000 * (t ^ 9 * s ^ 4) +
        8992354202922815369 / 472877960873902080000000 * (t ^ 10 * s ^ 3) +
        8987508007165002869 / 1733885856537640960000000 * (t ^ 11 * s ^ 2) +
        12056530692162842367 / 13871086852301127680000000 * (t ^ 12 * s) +
        940274986754665759 / 13871086852301127680000000 * (t ^ 13) := by
    rw [atanPL, atanQL, hv, hst]; ring
  have a0 : 0 ≤ 1 / 20000000 + (atanPL v - atanQL v) := by rw [a]; positivity
  have b0 : 0 ≤ 1 / 20000000 - (atanPL v - atanQL v) := by rw [b]; positivity
  rw [abs_le]
  constructor <;> linarith

theorem atanPQL_3 (v : ℝ) (h0 : 3 / 4 ≤ v) (h1 : v ≤ 1) : |atanPL v - atanQL v| ≤ 1 / 20000000 := by
  obtain ⟨t, ht, hv⟩ : ∃ t : ℝ, 0 ≤ t ∧ v = 3 / 4 + t * (1 / 4) := ⟨(v - (3 / 4)) * (4), mul_nonneg (by linarith) (by norm_num), by ring⟩
  obtain ⟨s, hs, hst⟩ : ∃ s : ℝ, 0 ≤ s ∧ s = 1 - t := ⟨1 - t, by linarith, rfl⟩
  have a : 1 / 20000000 + (atanPL v - atanQL v) = 446833698475447009 / 13871086852301127680000000 * (s ^ 13) +
        5641793944532998617 / 13871086852301127680000000 * (t * s ^ 12) +
        4035669266885159119 / 1733885856537640960000000 * (t ^ 2 * s ^ 11) +
        234933943970503109 / 29554872554618880000000 * (t ^ 3 * s ^ 10) +
        53352787376090621 / 2955487255461888000000 * (t ^ 4 * s ^ 9) +
        71504224141628119 / 2462906046218240000000 * (t ^ 5 * s ^ 8) +
        10746067840206249 / 307863255777280000000 * (t ^ 6 * s ^ 7) +
        5096403059673437 / 153931627888640000000 * (t ^ 7 * s ^ 6) +
        31289248567181247 / 1231453023109120000000 * (t ^ 8 * s ^ 5) +
        33144571809681247 / 2216615441596416000000 * (t ^ 9 * s ^ 4) +
        32154947807181247 / 5541538603991040000000 * (t ^ 10 * s ^ 3) +
        22640135927181247 / 20318974881300480000000 * (t ^ 11 * s ^ 2) +
        5307124847181247 / 121913849287802880000000 * (t ^ 12 * s) +
        990991535937019 / 121913849287802880000000 * (t ^ 13) := by
    rw [atanPL, atanQL, hv, hst]; ring
  have b : 1 / 20000000 - (atanPL v - atanQL v) = 940274986754665759 / 13871086852301127680000000 * (s ^ 13) +
        12390618963458467367 / 13871086852301127680000000 * (t * s ^ 12) +
        9488640414108440369 / 1733885856537640960000000 * (t ^ 2 * s ^ 11) +
        610335411091596859 / 29554872554618880000000 * (t ^ 3 * s ^ 10) +
        157964551389434371 / 2955487255461888000000 * (t ^ 4 * s ^ 9) +
        245471784006659369 / 2462906046218240000000 * (t ^ 5 * s ^ 8) +
        42083266851174999 / 307863255777280000000 * (t ^ 6 * s ^ 7) +
        21318264286017187 / 153931627888640000000 * (t ^ 7 * s ^ 6) +
        127198755506962497 / 1231453023109120000000 * (t ^ 8 * s ^ 5) +
        125343432264462497 / 2216615441596416000000 * (t ^ 9 * s ^ 4) +
        126333056266962497 / 5541538603991040000000 * (t ^ 10 * s ^ 3) +
        135847868146962497 / 20318974881300480000000 * (t ^ 11 * s ^ 2) +
        153180879226962497 / 121913849287802880000000 * (t ^ 12 * s) +
        11200393392843269 / 121913849287802880000000 * (t ^ 13) := by
    rw [atanPL, atanQL, hv, hst]; ring
  have a0 : 0 ≤ 1 / 20000000 + (atanPL v - atanQL v) := by rw [a]; positivity
  have b0 : 0 ≤ 1 / 20000000 - (atanPL v - atanQL v) := by rw [b]; positivity
  rw [abs_le]
  constructor <;> linarith

/-- the polynomials are close to each other -/
theorem atanPQL (v : ℝ) (h0 : 0 ≤ v) (h1 : v ≤ 1) : |atanPL v - atanQL v| ≤ 1 / 20000000 := by
  rcases le_total v (1 / 4) with g0 | g0
  · exact atanPQL_0 v h0 g0
  rcases le_total v (1 / 2) with g1 | g1
  · exact atanPQL_1 v g0 g1
  rcases le_total v (3 / 4) with g2 | g2
  · exact atanPQL_2 v g1 g2
  exact atanPQL_3 v g2 h1

theorem hasDerivAt_atanPL (v : ℝ) : HasDerivAt atanPL (atanPL' v) v := by
  unfold atanPL atanPL'
  have h (c : ℝ) (n : ℕ) : HasDerivAt (fun v : ℝ => c * v ^ n) (c * (n * v ^ (n - 1))) v := (hasDerivAt_pow n v).const_mul c
  have h1 (c : ℝ) : HasDerivAt (fun v : ℝ => c * v) (c * 1) v := (hasDerivAt_id v).const_mul c
  refine HasDerivAt.congr_deriv (((((((((((hasDerivAt_const v _).fun_add (h1 _)).fun_add (h _ 2)).fun_add (h _ 3)).fun_add (h _ 4)).fun_add (h _ 5)).fun_add (h _ 6)).fun_add (h _ 7)).fun_add (h _ 8)).fun_add (h _ 9)).fun_add (h _ 10)) ?_
  norm_num
  ring

theorem hasDerivAt_atanQL (v : ℝ) : HasDerivAt atanQL (atanQL' v) v := by
  unfold atanQL atanQL'
  have h (c : ℝ) (n : ℕ) : HasDerivAt (fun v : ℝ => c * v ^ n) (c * (n * v ^ (n - 1))) v := (hasDerivAt_pow n v).const_mul c
  have h1 (c : ℝ) : HasDerivAt (fun v : ℝ => c * v) (c * 1) v := (hasDerivAt_id v).const_mul c
  refine HasDerivAt.congr_deriv ((((((((((((h1 _).fun_add (h _ 2)).fun_add (h _ 3)).fun_add (h _ 4)).fun_add (h _ 5)).fun_add (h _ 6)).fun_add (h _ 7)).fun_add (h _ 8)).fun_add (h _ 9)).fun_add (h _ 10)).fun_add (h _ 11)).fun_add (h _ 12)) ?_
  norm_num
  ring

/-- the polynomial follows small changes of its argument -/
theorem atanPL_lipschitz (u v : ℝ) (hu0 : -1 / 16 ≤ u) (hu1 : u ≤ 17 / 16) (hv0 : -1 / 16 ≤ v) (hv1 : v ≤ 17 / 16) : |atanPL u - atanPL v| ≤ 101 / 100 * |u - v| := by
  have := Convex.norm_image_sub_le_of_norm_hasDerivWithin_le (f := atanPL) (f' := atanPL') (C := 101 / 100) (s := Set.Icc (-1 / 16) (17 / 16)) (x := v) (y := u)
    (fun z _ => (hasDerivAt_atanPL z).hasDerivWithinAt) (fun z hz => by rw [Real.norm_eq_abs]; exact atanPL_slope z hz.1 hz.2) (convex_Icc _ _) ⟨hv0, hv1⟩ ⟨hu0, hu1⟩
  rwa [Real.norm_eq_abs, Real.norm_eq_abs] at this

theorem atanQL_close (v : ℝ) (h0 : 0 ≤ v) (h1 : v ≤ 1) : |atanQL v - Real.arctan v| ≤ 3 / 50000000 := by
  have := Convex.norm_image_sub_le_of_norm_hasDerivWithin_le (f := fun z => atanQL z - Real.arctan z) (f' := fun z => atanQL' z - 1 / (1 + z ^ 2))
    (C := 3 / 50000000) (s := Set.Icc 0 1) (x := 0) (y := v)
    (fun z _ => ((hasDerivAt_atanQL z).sub (Real.hasDerivAt_arctan z)).hasDerivWithinAt) (fun z hz => by
      rw [Real.norm_eq_abs]
      have hp : (1 : ℝ) ≤ 1 + z ^ 2 := by nlinarith [sq_nonneg z]
      have e : atanQL' z - 1 / (1 + z ^ 2) = (atanQL' z * (1 + z ^ 2) - 1) / (1 + z ^ 2) := by field_simp
      rw [e, abs_div, abs_of_pos (by linarith : (0 : ℝ) < 1 + z ^ 2)]
      exact (div_le_self (abs_nonneg _) hp).trans (atanQL_deriv z hz.1 hz.2)) (convex_Icc _ _) ⟨le_rfl, zero_le_one⟩ ⟨h0, h1⟩
  have e0 : atanQL 0 = 0 := by simp [atanQL]
  rw [Real.norm_eq_abs, Real.norm_eq_abs, e0, Real.arctan_zero, sub_zero, sub_zero, sub_zero, abs_of_nonneg h0] at this
  linarith

/-- the polynomial is within `1.1·10⁻⁷` of the arc tangent -/
theorem atanPL_close (v : ℝ) (h0 : 0 ≤ v) (h1 : v ≤ 1) : |atanPL v - Real.arctan v| ≤ 11 / 100000000 := by
  have a := atanPQL v h0 h1
  have b := atanQL_close v h0 h1
  have e : atanPL v - Real.arctan v = (atanPL v - atanQL v) + (atanQL v - Real.arctan v) := by ring
  rw [e]
  refine (abs_add_le _ _).trans ?_
  linarith

end Spu.Props
