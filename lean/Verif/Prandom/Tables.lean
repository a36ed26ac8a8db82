/-!
# Prandom: certificates for the full-period proofs (generated)

Each table is only a witness: `Verif.Prandom.Lemmas` checks in the kernel that the given matrices are inverses.
-/

namespace Bfdev.Prandom

/-- Component 1: for each prime `p` of the period, `p`, the bits of `(2^31 - 1) / p`, and the inverse of `A ^ ((2^31 - 1) / p) - 1`. -/
def wit1 : List (Nat × List Bool × List Nat) := [
  (2147483647, [true],
   [0, 2180505724, 66044154, 132088310, 264176622, 528353246, 1056706494, 2113412990, 4226825980, 4158684664, 4022402032, 3749836768, 3204706240, 2114445184, 4228890370, 4162813446, 4030659598, 3766351902, 3237736510, 2180505726, 66044158, 132088318, 264176638, 528353278, 1056706558, 2113413118, 2047336320, 4094672642, 3894377990, 3493788686, 2692610078, 1090252862])]

/-- Component 2: for each prime `p` of the period, `p`, the bits of `(2^29 - 1) / p`, and the inverse of `A ^ ((2^29 - 1) / p) - 1`. -/
def wit2 : List (Nat × List Bool × List Nat) := [
  (233, [true, true, true, false, false, true, false, true, false, false, false, true, false, true, false, false, true, true, false, false, false, true],
   [0, 0, 0, 3540646696, 2786326104, 1277684912, 2555369824, 815772360, 1631544728, 3263089464, 2231211640, 167455992, 334911984, 669823968, 1339647944, 2679295888, 1063624488, 2127248984, 4254497976, 4214028656, 4133090016, 3971212736, 3647458176, 2999949064, 1704930832, 3409861672, 2524756056, 754544824, 1509089656, 3018179312, 3032645320, 1770323344]),
  (1103, [true, false, false, false, true, false, true, false, true, false, true, true, false, true, true, false, true, true, true],
   [0, 0, 0, 2092977592, 4185955192, 4076943088, 3858918880, 3422870464, 2550773640, 806579992, 1613159992, 3226319992, 2157672696, 20378104, 40756208, 81512416, 163024832, 326049664, 652099328, 1304198664, 2608397328, 921827368, 1843654744, 3687309496, 3079651704, 1864336112, 3728672232, 3162377176, 2029787056, 4059574120, 2670728040, 1046488792]),
  (2089, [true, true, true, false, false, true, true, true, true, true, false, true, false, true, true, true, true, true],
   [0, 0, 0, 3479402264, 2663837240, 1032707192, 2065414392, 4130828792, 3966690288, 3638413280, 2981859272, 1668751248, 3337502504, 2380037720, 465108152, 930216304, 1860432616, 3720865240, 3146763192, 1998559088, 3997118184, 3699269072, 3103570856, 1912174416, 3824348840, 3353730384, 2412493480, 530019672, 1060039344, 2120078696, 869850560, 1739701128])]

/-- Component 3: for each prime `p` of the period, `p`, the bits of `(2^28 - 1) / p`, and the inverse of `A ^ ((2^28 - 1) / p) - 1`. -/
def wit3 : List (Nat × List Bool × List Nat) := [
  (3, [true, false, true, false, true, false, true, false, true, false, true, false, true, false, true, false, true, false, true, false, true, false, true, false, true, false, true],
   [0, 0, 0, 0, 1409735536, 2819471088, 1343974880, 2687949760, 1080932224, 2161864464, 28761648, 57523312, 115046640, 230093280, 460186576, 920373168, 1840746336, 3681492688, 3068018080, 968532016, 1937064032, 3874128080, 3453288880, 2611610464, 928253648, 1856507312, 3713014624, 3131061968, 1967156656, 3934313312, 3573659344, 2852351408]),
  (5, [true, true, false, false, true, true, false, false, true, true, false, false, true, true, false, false, true, true, false, false, true, true, false, false, true, true],
   [0, 0, 0, 0, 335697984, 671395968, 1342791952, 2685583904, 1076200528, 2152401072, 9834864, 19669744, 39339504, 78679008, 157358016, 314716032, 629432064, 1258864144, 2517728288, 941662224, 1883324448, 3766648896, 3238330512, 2181693728, 68420176, 136840368, 273680736, 547361472, 1094722944, 2189445888, 83924496, 167848992]),
  (29, [true, true, false, true, false, false, true, true, true, false, true, true, true, true, false, false, true, false, true, true, false, false, false, true],
   [0, 0, 0, 0, 2936055952, 1577144624, 3154289248, 2013611216, 4027222448, 3759477616, 3223987936, 2153008592, 11049888, 22099776, 44199552, 88399104, 176798224, 353596448, 707192896, 4216158208, 4137349120, 3979730960, 3664494624, 3034021968, 1773076640, 3546153296, 2797339296, 1299711296, 2599422592, 903877904, 1807755808, 3615511616]),
  (43, [true, false, true, true, true, true, true, false, true, false, false, false, false, false, true, false, true, true, true, true, true, false, true],
   [0, 0, 0, 0, 1969582672, 3939165360, 3583363440, 2871759584, 1448551888, 2897103792, 1499240288, 2998480592, 1701993904, 3403987808, 2513008320, 731049360, 1462098720, 2924197456, 1553427632, 3427511072, 2560054864, 825142432, 1650284880, 3300569776, 2306172272, 317377248, 634754496, 1269509008, 2539018016, 783068736, 1566137488, 3132274976]),
  (113, [true, true, true, true, false, true, true, false, true, true, true, true, true, true, false, false, false, false, true, false, false, true],
   [0, 0, 0, 0, 3194249024, 2093530752, 4187061504, 4079155728, 3863344176, 3431721056, 2568474832, 841982368, 1683964752, 3367929520, 2440891744, 586816192, 1173632384, 2347264784, 399562288, 2445669152, 596371008, 1192742016, 2385484048, 476000800, 952001616, 1904003248, 3808006512, 3321045744, 2347124208, 399281120, 798562256, 1597124512]),
  (127, [true, false, false, false, false, false, false, true, false, false, false, false, false, false, true, false, false, false, false, false, false, true],
   [0, 0, 0, 0, 1019386480, 2038772960, 4077545936, 3860124592, 3425281888, 2555596496, 816225712, 1632451440, 3264902896, 2234838512, 174709728, 349419456, 698838912, 1397677840, 2795355696, 1912202768, 3824405536, 3353843792, 2412720288, 530473280, 1060946576, 2121893168, 4243786336, 4192605392, 4090243488, 3885519680, 3476072080, 2657176880])]

/-- Component 4: for each prime `p` of the period, `p`, the bits of `(2^25 - 1) / p`, and the inverse of `A ^ ((2^25 - 1) / p) - 1`. -/
def wit4 : List (Nat × List Bool × List Nat) := [
  (31, [true, false, false, false, false, true, false, false, false, false, true, false, false, false, false, true, false, false, false, false, true],
   [0, 0, 0, 0, 0, 0, 0, 2381491712, 468016256, 936032640, 1872065408, 3744130816, 3193294336, 2091621376, 4183242880, 4071518464, 3848069632, 3401172096, 2507377024, 719786752, 1439573504, 2879147136, 1463327104, 2926654336, 1558341504, 3116683136, 1938398976, 3876798080, 3458628992, 297686400, 595372928, 1190745856]),
  (601, [true, true, true, false, true, false, false, false, false, true, false, true, true, false, true, true],
   [0, 0, 0, 0, 0, 0, 0, 2403251968, 511536768, 1023073664, 2046147456, 4092295040, 3889622784, 3484278400, 2673589632, 1052211968, 2104424064, 4208848256, 4122729216, 3950491136, 3606015104, 2917062912, 1539158656, 3078317440, 1861667584, 3723335168, 3151703040, 2008438784, 4016877696, 1374148224, 2748296576, 1201625984]),
  (1801, [true, true, true, false, false, false, true, true, false, false, false, true, false, false, true],
   [0, 0, 0, 0, 0, 0, 0, 3327238528, 2359509888, 424052608, 848105344, 1696210816, 3392421632, 2489876096, 684784896, 1369569792, 2739139712, 1183312256, 2366624512, 438281856, 876563840, 1753127808, 3506255616, 2717543936, 1140120704, 2280241408, 265515648, 531031296, 1062062720, 3100259328, 1905551360, 3811102848])]

end Bfdev.Prandom
