import Verif.Model.Butcher

/-!
# Butcher tables of `qmat/qcoeff/butcher.py`

Generated by `tools/gen_tables.py`, which evaluates the class bodies in exact arithmetic: rationals
and multiples of `√2`, `√3`; decimal literals are read as decimals.  `q n m` is `n/m`, `r n m k l` is
`n/m + k/l √d`.  `orderEmbedded` is `order - 1` unless overridden (`qcoeff/__init__.py` 132-135).
-/

namespace QMat.Tables

open Quad

/-- `butcher.py` 131-139, class `FE`. -/
def tFE : RKTable where
  name := "FE"
  aliases := ["EE"]
  d := 2
  A := [[q 0]]
  b := [q 1]
  c := [q 0]
  b2 := none
  order := 1
  orderEmbedded := 0

/-- `butcher.py` 143-152, class `RK21`. -/
def tRK21 : RKTable where
  name := "RK21"
  aliases := ["ERK21"]
  d := 2
  A := [[q 0, q 0],
        [q 3 4, q 0]]
  b := [q (-1) 3, q 4 3]
  c := [q 0, q 3 4]
  b2 := none
  order := 1
  orderEmbedded := 0

/-- `butcher.py` 157-166, class `RK2`. -/
def tRK2 : RKTable where
  name := "RK2"
  aliases := ["ERK2", "ExplicitMidPoint", "EMP"]
  d := 2
  A := [[q 0, q 0],
        [q 1 2, q 0]]
  b := [q 0, q 1]
  c := [q 0, q 1 2]
  b2 := none
  order := 2
  orderEmbedded := 1

/-- `butcher.py` 170-180, class `HEUN2`. -/
def tHEUN2 : RKTable where
  name := "HEUN2"
  aliases := ["HEUN", "HeunEuler"]
  d := 2
  A := [[q 0, q 0],
        [q 1, q 0]]
  b := [q 1 2, q 1 2]
  c := [q 0, q 1]
  b2 := some [q 1, q 0]
  order := 2
  orderEmbedded := 1

/-- `butcher.py` 185-195, class `RK32`. -/
def tRK32 : RKTable where
  name := "RK32"
  aliases := ["ERK32", "RK32-SSP"]
  d := 2
  A := [[q 0, q 0, q 0],
        [q 1 3, q 0, q 0],
        [q 0, q 1, q 0]]
  b := [q 1 2, q 0, q 1 2]
  c := [q 0, q 1 3, q 1]
  b2 := none
  order := 3
  orderEmbedded := 2

/-- `butcher.py` 199-209, class `RK33`. -/
def tRK33 : RKTable where
  name := "RK33"
  aliases := ["ERK33", "RK33-SSP"]
  d := 2
  A := [[q 0, q 0, q 0],
        [q 1, q 0, q 0],
        [q 1 4, q 1 4, q 0]]
  b := [q 1 6, q 1 6, q 2 3]
  c := [q 0, q 1, q 1 2]
  b2 := none
  order := 3
  orderEmbedded := 2

/-- `butcher.py` 213-225, class `RK53`. -/
def tRK53 : RKTable where
  name := "RK53"
  aliases := ["ERK53"]
  d := 2
  A := [[q 0, q 0, q 0, q 0, q 0],
        [q 1 7, q 0, q 0, q 0, q 0],
        [q 0, q 3 13, q 0, q 0, q 0],
        [q 0, q 0, q 1 3, q 0, q 0],
        [q 0, q 0, q 0, q 2 3, q 0]]
  b := [q 1 4, q 0, q 0, q 0, q 3 4]
  c := [q 0, q 1 7, q 3 16, q 1 3, q 2 3]
  b2 := none
  order := 3
  orderEmbedded := 2

/-- `butcher.py` 230-241, class `RK4`. -/
def tRK4 : RKTable where
  name := "RK4"
  aliases := ["ERK4"]
  d := 2
  A := [[q 0, q 0, q 0, q 0],
        [q 1 2, q 0, q 0, q 0],
        [q 0, q 1 2, q 0, q 0],
        [q 0, q 0, q 1, q 0]]
  b := [q 1 6, q 1 3, q 1 3, q 1 6]
  c := [q 0, q 1 2, q 1 2, q 1]
  b2 := none
  order := 4
  orderEmbedded := 3

/-- `butcher.py` 245-256, class `RK4_38`. -/
def tRK4_38 : RKTable where
  name := "RK4_38"
  aliases := ["ERK4_38"]
  d := 2
  A := [[q 0, q 0, q 0, q 0],
        [q 1 3, q 0, q 0, q 0],
        [q (-1) 3, q 1, q 0, q 0],
        [q 1, q (-1), q 1, q 0]]
  b := [q 1 8, q 3 8, q 3 8, q 1 8]
  c := [q 0, q 1 3, q 2 3, q 1]
  b2 := none
  order := 4
  orderEmbedded := 3

/-- `butcher.py` 261-274, class `RK65`. -/
def tRK65 : RKTable where
  name := "RK65"
  aliases := ["ERK65"]
  d := 2
  A := [[q 0, q 0, q 0, q 0, q 0, q 0],
        [q 1 4, q 0, q 0, q 0, q 0, q 0],
        [q 1 8, q 1 8, q 0, q 0, q 0, q 0],
        [q 0, q 0, q 1 2, q 0, q 0, q 0],
        [q 3 16, q (-3) 8, q 3 8, q 9 16, q 0, q 0],
        [q (-3) 7, q 8 7, q 6 7, q (-12) 7, q 8 7, q 0]]
  b := [q 7 90, q 0, q 16 45, q 2 15, q 16 45, q 7 90]
  c := [q 0, q 1 4, q 1 4, q 1 2, q 3 4, q 1]
  b2 := none
  order := 5
  orderEmbedded := 4

/-- `butcher.py` 278-297, class `CashKarp`. -/
def tCashKarp : RKTable where
  name := "CashKarp"
  aliases := ["Cash_Karp"]
  d := 2
  A := [[q 0, q 0, q 0, q 0, q 0, q 0],
        [q 1 5, q 0, q 0, q 0, q 0, q 0],
        [q 3 40, q 9 40, q 0, q 0, q 0, q 0],
        [q 3 10, q (-9) 10, q 6 5, q 0, q 0, q 0],
        [q (-11) 54, q 5 2, q (-70) 27, q 35 27, q 0, q 0],
        [q 1631 55296, q 175 512, q 575 13824, q 44275 110592, q 253 4096, q 0]]
  b := [q 37 378, q 0, q 250 621, q 125 594, q 0, q 512 1771]
  c := [q 0, q 1 5, q 3 10, q 3 5, q 1, q 7 8]
  b2 := some [q 2825 27648, q 0, q 18575 48384, q 13525 55296, q 277 14336, q 1 4]
  order := 5
  orderEmbedded := 4

/-- `butcher.py` 306-314, class `BE`. -/
def tBE : RKTable where
  name := "BE"
  aliases := ["IE", "SDIRK1"]
  d := 2
  A := [[q 1]]
  b := [q 1]
  c := [q 1]
  b2 := none
  order := 1
  orderEmbedded := 0

/-- `butcher.py` 319-327, class `MidPoint`. -/
def tMidPoint : RKTable where
  name := "MidPoint"
  aliases := ["IMP", "ImplicitMidPoint"]
  d := 2
  A := [[q 1 2]]
  b := [q 1]
  c := [q 1 2]
  b2 := none
  order := 2
  orderEmbedded := 1

/-- `butcher.py` 331-340, class `TRAP`. -/
def tTRAP : RKTable where
  name := "TRAP"
  aliases := ["TRAPZ", "CN", "CrankNicolson"]
  d := 2
  A := [[q 0, q 0],
        [q 1 2, q 1 2]]
  b := [q 1 2, q 1 2]
  c := [q 0, q 1]
  b2 := none
  order := 2
  orderEmbedded := 1

/-- `butcher.py` 344-352, class `SDIRK2`. -/
def tSDIRK2 : RKTable where
  name := "SDIRK2"
  aliases := []
  d := 2
  A := [[r 1 1 (-1) 2, q 0],
        [r 0 1 1 2, r 1 1 (-1) 2]]
  b := [r 0 1 1 2, r 1 1 (-1) 2]
  c := [r 1 1 (-1) 2, q 1]
  b2 := none
  order := 2
  orderEmbedded := 1

/-- `butcher.py` 356-368, class `SDIRK2_2`. -/
def tSDIRK2_2 : RKTable where
  name := "SDIRK2_2"
  aliases := ["SDIRK2-2"]
  d := 2
  A := [[r 1 1 1 2, q 0],
        [r 0 1 (-1) 2, r 1 1 1 2]]
  b := [r 0 1 (-1) 2, r 1 1 1 2]
  c := [r 1 1 1 2, q 1]
  b2 := none
  order := 2
  orderEmbedded := 1

/-- `butcher.py` 373-382, class `SDIRK3`. -/
def tSDIRK3 : RKTable where
  name := "SDIRK3"
  aliases := []
  d := 2
  A := [[q 43586652150845967 100000000000000000, q 0, q 0],
        [q 14103336962288507 50000000000000000, q 43586652150845967 100000000000000000, q 0],
        [q 12084966491760119 10000000000000000, q (-1288726341368943) 2000000000000000,
         q 43586652150845967 100000000000000000]]
  b := [q 12084966491760119 10000000000000000, q (-1288726341368943) 2000000000000000,
        q 43586652150845967 100000000000000000]
  c := [q 43586652150845967 100000000000000000, q 3589666303771149 5000000000000000, q 1]
  b2 := none
  order := 3
  orderEmbedded := 2

/-- `butcher.py` 386-399, class `DIRK43`. -/
def tDIRK43 : RKTable where
  name := "DIRK43"
  aliases := []
  d := 2
  A := [[q 1 2, q 0, q 0, q 0],
        [q 1 6, q 1 2, q 0, q 0],
        [q (-1) 2, q 1 2, q 1 2, q 0],
        [q 3 2, q (-3) 2, q 1 2, q 1 2]]
  b := [q 3 2, q (-3) 2, q 1 2, q 1 2]
  c := [q 1 2, q 2 3, q 1 2, q 1]
  b2 := none
  order := 3
  orderEmbedded := 2

/-- `butcher.py` 404-413, class `GAUSS_LG`. -/
def tGAUSS_LG : RKTable where
  name := "GAUSS_LG"
  aliases := ["GAUSS-LG"]
  d := 3
  A := [[q 1 4, r 1 4 (-1) 6],
        [r 1 4 1 6, q 1 4]]
  b := [q 1 2, q 1 2]
  c := [r 1 2 (-1) 6, r 1 2 1 6]
  b2 := none
  order := 4
  orderEmbedded := 3

/-- `butcher.py` 417-430, class `SDIRK54`. -/
def tSDIRK54 : RKTable where
  name := "SDIRK54"
  aliases := []
  d := 2
  A := [[q 1 4, q 0, q 0, q 0, q 0],
        [q 1 2, q 1 4, q 0, q 0, q 0],
        [q 17 50, q (-1) 25, q 1 4, q 0, q 0],
        [q 371 1360, q (-137) 2720, q 15 544, q 1 4, q 0],
        [q 25 24, q (-49) 48, q 125 16, q (-85) 12, q 1 4]]
  b := [q 25 24, q (-49) 48, q 125 16, q (-85) 12, q 1 4]
  c := [q 1 4, q 3 4, q 11 20, q 1 2, q 1]
  b2 := none
  order := 4
  orderEmbedded := 3

/-- `butcher.py` 434-450, class `EDIRK43`. -/
def tEDIRK43 : RKTable where
  name := "EDIRK43"
  aliases := []
  d := 2
  A := [[q 5 6, q 0, q 0, q 0],
        [q (-15) 26, q 5 6, q 0, q 0],
        [q 215 54, q (-130) 27, q 5 6, q 0],
        [q 4007 6075, q (-31031) 24300, q (-133) 2700, q 5 6]]
  b := [q 61 150, q 2197 2100, q 19 100, q (-9) 14]
  c := [q 5 6, q 10 39, q 0, q 1 6]
  b2 := some [q 32 75, q 169 300, q 1 100, q 0]
  order := 4
  orderEmbedded := 3

/-- `butcher.py` 454-469, class `EDIRK4`. -/
def tEDIRK4 : RKTable where
  name := "EDIRK4"
  aliases := []
  d := 2
  A := [[q 0, q 0, q 0, q 0],
        [q 3 4, q 3 4, q 0, q 0],
        [q 149 225, q (-119) 225, q 19 15, q 0],
        [q 13 42, q 2, q (-125) 42, q 5 3]]
  b := [q 13 42, q 2, q (-125) 42, q 5 3]
  c := [q 0, q 3 2, q 7 5, q 1]
  b2 := none
  order := 4
  orderEmbedded := 3

/-- `butcher.py` 473-527, class `ESDIRK43`. -/
def tESDIRK43 : RKTable where
  name := "ESDIRK43"
  aliases := []
  d := 2
  A := [[q 0, q 0, q 0, q 0, q 0, q 0],
        [q 1 4, q 1 4, q 0, q 0, q 0, q 0],
        [r 1 8 (-1) 8, r 1 8 (-1) 8, q 1 4, q 0, q 0, q 0],
        [r 5 64 (-7) 64, r 5 64 (-7) 64, r 7 32 7 32, q 1 4, q 0, q 0],
        [r (-3449) 31250 (-54539) 125000, r (-3449) 31250 (-54539) 125000,
         r 101321 87500 132109 437500, r (-16102) 109375 62416 109375, q 1 4, q 0],
        [r 1181 13782 (-329) 4594, r 1181 13782 (-329) 4594, r (-12549) 273343 83801 273343,
         r 366752 571953 (-18800) 190651, r (-1515625) 90749876 (-1468750) 22687469, q 1 4]]
  b := [r 1181 13782 (-329) 4594, r 1181 13782 (-329) 4594, r (-12549) 273343 83801 273343,
        r 366752 571953 (-18800) 190651, r (-1515625) 90749876 (-1468750) 22687469, q 1 4]
  c := [q 0, q 1 2, r 1 2 (-1) 4, q 5 8, q 26 25, q 1]
  b2 := some [q (-480923228411) 4982971448372, q (-480923228411) 4982971448372,
              q 6709447293961 12833189095359, q 3513175791894 6748737351361,
              q (-498863281070) 6042575550617, q 2077005547802 8945017530137]
  order := 4
  orderEmbedded := 3

/-- `butcher.py` 532-587, class `ESDIRK53`. -/
def tESDIRK53 : RKTable where
  name := "ESDIRK53"
  aliases := []
  d := 2
  A := [[q 0, q 0, q 0, q 0, q 0, q 0],
        [q 3282482714977 11805205429139, q 3282482714977 11805205429139, q 0, q 0, q 0, q 0],
        [q 606638434273 1934588254988, q 2719561380667 6223645057524,
         q 3282482714977 11805205429139, q 0, q 0, q 0],
        [q (-651839358321) 6893317340882, q (-1510159624805) 11312503783159,
         q 235043282255 4700683032009, q 3282482714977 11805205429139, q 0, q 0],
        [q (-5266892529762) 23715740857879, q (-1007523679375) 10375683364751,
         q 521543607658 16698046240053, q 514935039541 7366641897523,
         q 3282482714977 11805205429139, q 0],
        [q (-6225479754948) 6925873918471, q 6894665360202 11185215031699,
         q (-2508324082331) 20512393166649, q (-7289596211309) 4653106810017,
         q 39811658682819 14781729060964, q 3282482714977 11805205429139]]
  b := [q (-6225479754948) 6925873918471, q 6894665360202 11185215031699,
        q (-2508324082331) 20512393166649, q (-7289596211309) 4653106810017,
        q 39811658682819 14781729060964, q 3282482714977 11805205429139]
  c := [q 0, q 4024571134387 7237035672548, q 14228244952610 13832614967709, q 1 10, q 3 50, q 1]
  b2 := some [q (-2512930284403) 5616797563683, q 5849584892053 8244045029872,
              q (-718651703996) 6000050726475, q (-18982822128277) 13735826808854,
              q 23127941173280 11608435116569, q 2847520232427 11515777524847]
  order := 5
  orderEmbedded := 3

/-- `butcher.py` 594-666, class `ARK548L2SAERK`. -/
def tARK548L2SAERK : RKTable where
  name := "ARK548L2SAERK"
  aliases := []
  d := 2
  A := [[q 0, q 0, q 0, q 0, q 0, q 0, q 0, q 0],
        [q 41 100, q 0, q 0, q 0, q 0, q 0, q 0, q 0],
        [q 367902744464 2072280473677, q 677623207551 8224143866563, q 0, q 0, q 0, q 0, q 0, q 0],
        [q 1268023523408 10340822734521, q 0, q 1029933939417 13636558850479, q 0, q 0, q 0, q 0,
         q 0],
        [q 14463281900351 6315353703477, q 0, q 66114435211212 5879490589093,
         q (-54053170152839) 4284798021562, q 0, q 0, q 0, q 0],
        [q 14090043504691 34967701212078, q 0, q 15191511035443 11219624916014,
         q (-18461159152457) 12425892160975, q (-281667163811) 9011619295870, q 0, q 0, q 0],
        [q 19230459214898 13134317526959, q 0, q 21275331358303 2942455364971,
         q (-38145345988419) 4862620318723, q (-1) 8, q (-1) 8, q 0, q 0],
        [q (-19977161125411) 11928030595625, q 0, q (-40795976796054) 6384907823539,
         q 177454434618887 12078138498510, q 782672205425 8267701900261,
         q (-69563011059811) 9646580694205, q 7356628210526 4942186776405, q 0]]
  b := [q (-872700587467) 9133579230613, q 0, q 0, q 22348218063261 9555858737531,
        q (-1143369518992) 8141816002931, q (-39379526789629) 19018526304540,
        q 32727382324388 42900044865799, q 41 200]
  c := [q 0, q 41 100, q 2935347310677 11292855782101, q 1426016391358 7196633302097, q 23 25,
        q 6 25, q 3 5, q 1]
  b2 := some [q (-975461918565) 9796059967033, q 0, q 0, q 78070527104295 32432590147079,
              q (-548382580838) 3424219808633, q (-33438840321285) 15594753105479,
              q 3629800801594 4656183773603, q 4035322873751 18575991585200]
  order := 5
  orderEmbedded := 4

/-- `butcher.py` 670-716, class `ARK548L2SAESDIRK`, subclass of `ARK548L2SAERK`. -/
def tARK548L2SAESDIRK : RKTable where
  name := "ARK548L2SAESDIRK"
  aliases := []
  d := 2
  A := [[q 0, q 0, q 0, q 0, q 0, q 0, q 0, q 0],
        [q 41 200, q 41 200, q 0, q 0, q 0, q 0, q 0, q 0],
        [q 41 400, q (-567603406766) 11931857230679, q 41 200, q 0, q 0, q 0, q 0, q 0],
        [q 683785636431 9252920307686, q 0, q (-110385047103) 1367015193373, q 41 200, q 0, q 0,
         q 0, q 0],
        [q 3016520224154 10081342136671, q 0, q 30586259806659 12414158314087,
         q (-22760509404356) 11113319521817, q 41 200, q 0, q 0, q 0],
        [q 218866479029 1489978393911, q 0, q 638256894668 5436446318841,
         q (-1179710474555) 5321154724896, q (-60928119172) 8023461067671, q 41 200, q 0, q 0],
        [q 1020004230633 5715676835656, q 0, q 25762820946817 25263940353407,
         q (-2161375909145) 9755907335909, q (-211217309593) 5846859502534,
         q (-4269925059573) 7827059040749, q 41 200, q 0],
        [q (-872700587467) 9133579230613, q 0, q 0, q 22348218063261 9555858737531,
         q (-1143369518992) 8141816002931, q (-39379526789629) 19018526304540,
         q 32727382324388 42900044865799, q 41 200]]
  b := [q (-872700587467) 9133579230613, q 0, q 0, q 22348218063261 9555858737531,
        q (-1143369518992) 8141816002931, q (-39379526789629) 19018526304540,
        q 32727382324388 42900044865799, q 41 200]
  c := [q 0, q 41 100, q 2935347310677 11292855782101, q 1426016391358 7196633302097, q 23 25,
        q 6 25, q 3 5, q 1]
  b2 := some [q (-975461918565) 9796059967033, q 0, q 0, q 78070527104295 32432590147079,
              q (-548382580838) 3424219808633, q (-33438840321285) 15594753105479,
              q 3629800801594 4656183773603, q 4035322873751 18575991585200]
  order := 5
  orderEmbedded := 5

/-- `butcher.py` 720-780, class `ARK548L2SAESDIRK2`. -/
def tARK548L2SAESDIRK2 : RKTable where
  name := "ARK548L2SAESDIRK2"
  aliases := []
  d := 2
  A := [[q 0, q 0, q 0, q 0, q 0, q 0, q 0, q 0],
        [q 2 9, q 2 9, q 0, q 0, q 0, q 0, q 0, q 0],
        [q 2366667076620 8822750406821, q 2366667076620 8822750406821, q 2 9, q 0, q 0, q 0, q 0,
         q 0],
        [q (-257962897183) 4451812247028, q (-257962897183) 4451812247028,
         q 128530224461 14379561246022, q 2 9, q 0, q 0, q 0, q 0],
        [q (-486229321650) 11227943450093, q (-486229321650) 11227943450093,
         q (-225633144460) 6633558740617, q 1741320951451 6824444397158, q 2 9, q 0, q 0, q 0],
        [q 621307788657 4714163060173, q 621307788657 4714163060173,
         q (-125196015625) 3866852212004, q 940440206406 7593089888465,
         q 961109811699 6734810228204, q 2 9, q 0, q 0],
        [q 2036305566805 6583108094622, q 2036305566805 6583108094622,
         q (-3039402635899) 4450598839912, q (-1829510709469) 31102090912115,
         q (-286320471013) 6931253422520, q 8651533662697 9642993110008, q 2 9, q 0],
        [q 0, q 0, q 3517720773327 20256071687669, q 4569610470461 17934693873752,
         q 2819471173109 11655438449929, q 3296210113763 10722700128969,
         q (-1142099968913) 5710983926999, q 2 9]]
  b := [q 0, q 0, q 3517720773327 20256071687669, q 4569610470461 17934693873752,
        q 2819471173109 11655438449929, q 3296210113763 10722700128969,
        q (-1142099968913) 5710983926999, q 2 9]
  c := [q 0, q 4 9, q 6456083330201 8509243623797, q 1632083962415 14158861528103,
        q 6365430648612 17842476412687, q 18 25, q 191 200, q 1]
  b2 := some [q 0, q 0, q 520639020421 8300446712847, q 4550235134915 17827758688493,
              q 1482366381361 6201654941325, q 5551607622171 13911031047899,
              q (-5266607656330) 36788968843917, q 1074053359553 5740751784926]
  order := 5
  orderEmbedded := 4

/-- `butcher.py` 784-817, class `ARK548L2SAERK2`, subclass of `ARK548L2SAESDIRK2`. -/
def tARK548L2SAERK2 : RKTable where
  name := "ARK548L2SAERK2"
  aliases := []
  d := 2
  A := [[q 0, q 0, q 0, q 0, q 0, q 0, q 0, q 0],
        [q 4 9, q 0, q 0, q 0, q 0, q 0, q 0, q 0],
        [q 1 9, q 1183333538310 1827251437969, q 0, q 0, q 0, q 0, q 0, q 0],
        [q 895379019517 9750411845327, q 477606656805 13473228687314,
         q (-112564739183) 9373365219272, q 0, q 0, q 0, q 0, q 0],
        [q (-4458043123994) 13015289567637, q (-2500665203865) 9342069639922,
         q 983347055801 8893519644487, q 2185051477207 2551468980502, q 0, q 0, q 0, q 0],
        [q (-167316361917) 17121522574472, q 1605541814917 7619724128744,
         q 991021770328 13052792161721, q 2342280609577 11279663441611,
         q 3012424348531 12792462456678, q 0, q 0, q 0],
        [q 6680998715867 14310383562358, q 5029118570809 3897454228471,
         q 2415062538259 6382199904604, q (-3924368632305) 6964820224454,
         q (-4331110370267) 15021686902756, q (-3944303808049) 11994238218192, q 0, q 0],
        [q 2193717860234 3570523412979, q 2193717860234 3570523412979,
         q 5952760925747 18750164281544, q (-4412967128996) 6196664114337,
         q 4151782504231 36106512998704, q 572599549169 6265429158920,
         q (-457874356192) 11306498036315, q 0]]
  b := [q 0, q 0, q 3517720773327 20256071687669, q 4569610470461 17934693873752,
        q 2819471173109 11655438449929, q 3296210113763 10722700128969,
        q (-1142099968913) 5710983926999, q 2 9]
  c := [q 0, q 4 9, q 6456083330201 8509243623797, q 1632083962415 14158861528103,
        q 6365430648612 17842476412687, q 18 25, q 191 200, q 1]
  b2 := some [q 0, q 0, q 520639020421 8300446712847, q 4550235134915 17827758688493,
              q 1482366381361 6201654941325, q 5551607622171 13911031047899,
              q (-5266607656330) 36788968843917, q 1074053359553 5740751784926]
  order := 5
  orderEmbedded := 4

/-- `butcher.py` 821-851, class `ARK324L2SAERK`. -/
def tARK324L2SAERK : RKTable where
  name := "ARK324L2SAERK"
  aliases := []
  d := 2
  A := [[q 0, q 0, q 0, q 0],
        [q 1767732205903 2027836641118, q 0, q 0, q 0],
        [q 5535828885825 10492691773637, q 788022342437 10882634858940, q 0, q 0],
        [q 6485989280629 16251701735622, q (-4246266847089) 9704473918619,
         q 10755448449292 10357097424841, q 0]]
  b := [q 1471266399579 7840856788654, q (-4482444167858) 7529755066697,
        q 11266239266428 11593286722821, q 1767732205903 4055673282236]
  c := [q 0, q 1767732205903 2027836641118, q 3 5, q 1]
  b2 := some [q 2756255671327 12835298489170, q (-10771552573575) 22201958757719,
              q 9247589265047 10645013368117, q 2193209047091 5459859503100]
  order := 3
  orderEmbedded := 2

/-- `butcher.py` 855-870, class `ARK324L2SAESDIRK`, subclass of `ARK324L2SAERK`. -/
def tARK324L2SAESDIRK : RKTable where
  name := "ARK324L2SAESDIRK"
  aliases := []
  d := 2
  A := [[q 0, q 0, q 0, q 0],
        [q 1767732205903 4055673282236, q 1767732205903 4055673282236, q 0, q 0],
        [q 2746238789719 10658868560708, q (-640167445237) 6845629431997,
         q 1767732205903 4055673282236, q 0],
        [q 1471266399579 7840856788654, q (-4482444167858) 7529755066697,
         q 11266239266428 11593286722821, q 1767732205903 4055673282236]]
  b := [q 1471266399579 7840856788654, q (-4482444167858) 7529755066697,
        q 11266239266428 11593286722821, q 1767732205903 4055673282236]
  c := [q 0, q 1767732205903 2027836641118, q 3 5, q 1]
  b2 := some [q 2756255671327 12835298489170, q (-10771552573575) 22201958757719,
              q 9247589265047 10645013368117, q 2193209047091 5459859503100]
  order := 3
  orderEmbedded := 2

/-- `butcher.py` 874-892, class `ARK222EDIRK`. -/
def tARK222EDIRK : RKTable where
  name := "ARK222EDIRK"
  aliases := []
  d := 2
  A := [[q 0, q 0, q 0],
        [q 0, r 1 1 (-1) 2, q 0],
        [q 0, r 0 1 1 2, r 1 1 (-1) 2]]
  b := [q 0, r 0 1 1 2, r 1 1 (-1) 2]
  c := [q 0, r 1 1 (-1) 2, q 1]
  b2 := none
  order := 2
  orderEmbedded := 1

/-- `butcher.py` 896-904, class `ARK222ERK`, subclass of `ARK222EDIRK`. -/
def tARK222ERK : RKTable where
  name := "ARK222ERK"
  aliases := []
  d := 2
  A := [[q 0, q 0, q 0],
        [r 1 1 (-1) 2, q 0, q 0],
        [r 0 1 (-1) 2, r 1 1 1 2, q 0]]
  b := [r 0 1 (-1) 2, r 1 1 1 2, q 0]
  c := [q 0, r 1 1 (-1) 2, q 1]
  b2 := none
  order := 2
  orderEmbedded := 1

/-- `butcher.py` 908-926, class `ARK443ESDIRK`. -/
def tARK443ESDIRK : RKTable where
  name := "ARK443ESDIRK"
  aliases := []
  d := 2
  A := [[q 0, q 0, q 0, q 0, q 0],
        [q 0, q 1 2, q 0, q 0, q 0],
        [q 0, q 1 6, q 1 2, q 0, q 0],
        [q 0, q (-1) 2, q 1 2, q 1 2, q 0],
        [q 0, q 3 2, q (-3) 2, q 1 2, q 1 2]]
  b := [q 0, q 3 2, q (-3) 2, q 1 2, q 1 2]
  c := [q 0, q 1 2, q 2 3, q 1 2, q 1]
  b2 := none
  order := 3
  orderEmbedded := 2

/-- `butcher.py` 930-940, class `ARK443ERK`, subclass of `ARK443ESDIRK`. -/
def tARK443ERK : RKTable where
  name := "ARK443ERK"
  aliases := []
  d := 2
  A := [[q 0, q 0, q 0, q 0, q 0],
        [q 1 2, q 0, q 0, q 0, q 0],
        [q 11 18, q 1 18, q 0, q 0, q 0],
        [q 5 6, q (-5) 6, q 1 2, q 0, q 0],
        [q 1 4, q 7 4, q 3 4, q (-7) 4, q 0]]
  b := [q 1 4, q 7 4, q 3 4, q (-7) 4, q 0]
  c := [q 0, q 1 2, q 2 3, q 1 2, q 1]
  b2 := none
  order := 3
  orderEmbedded := 2

/-- `butcher.py` 943-959, class `ARK343ESDIRK`. -/
def tARK343ESDIRK : RKTable where
  name := "ARK343ESDIRK"
  aliases := []
  d := 2
  A := [[q 0, q 0, q 0, q 0],
        [q 0, q 871733043 2000000000, q 0, q 0],
        [q 0, q 2754558 9765625, q 4256509 9765625, q 0],
        [q 0, q 2416993299 2000000000, q (-644363171) 1000000000, q 871733043 2000000000]]
  b := [q 0, q 2416993299 2000000000, q (-644363171) 1000000000, q 871733043 2000000000]
  c := [q 0, q 871733043 2000000000, q 7011067 9765625, q 1]
  b2 := none
  order := 3
  orderEmbedded := 2

/-- `butcher.py` 963-974, class `ARK343ERK`, subclass of `ARK343ESDIRK`. -/
def tARK343ERK : RKTable where
  name := "ARK343ERK"
  aliases := []
  d := 2
  A := [[q 0, q 0, q 0, q 0],
        [q 871733043 2000000000, q 0, q 0, q 0],
        [q 160639443 500000000, q 3966543747 10000000000, q 0, q 0],
        [q (-13232287) 125000000, q 5529291479 10000000000, q 5529291479 10000000000, q 0]]
  b := [q 0, q 2416993299 2000000000, q (-644363171) 1000000000, q 871733043 2000000000]
  c := [q 0, q 871733043 2000000000, q 7011067 9765625, q 1]
  b2 := none
  order := 4
  orderEmbedded := 3

/-- `butcher.py` 978-999, class `ARK4EDIRK`. -/
def tARK4EDIRK : RKTable where
  name := "ARK4EDIRK"
  aliases := []
  d := 2
  A := [[q 0, q 0, q 0, q 0, q 0, q 0, q 0],
        [q (-1) 6, q 1 2, q 0, q 0, q 0, q 0, q 0],
        [q 1 6, q (-1) 3, q 1 2, q 0, q 0, q 0, q 0],
        [q 3 8, q (-3) 8, q 0, q 1 2, q 0, q 0, q 0],
        [q 1 8, q 0, q 3 8, q (-1) 2, q 1 2, q 0, q 0],
        [q (-1) 2, q 0, q 3, q (-3), q 1, q 1 2, q 0],
        [q 1 6, q 0, q 0, q 0, q 2 3, q (-1) 2, q 2 3]]
  b := [q 1 6, q 0, q 0, q 0, q 2 3, q (-1) 2, q 2 3]
  c := [q 0, q 1 3, q 1 3, q 1 2, q 1 2, q 1, q 1]
  b2 := none
  order := 4
  orderEmbedded := 3

/-- `butcher.py` 1003-1017, class `ARK4ERK`, subclass of `ARK4EDIRK`. -/
def tARK4ERK : RKTable where
  name := "ARK4ERK"
  aliases := []
  d := 2
  A := [[q 0, q 0, q 0, q 0, q 0, q 0, q 0],
        [q 1 3, q 0, q 0, q 0, q 0, q 0, q 0],
        [q 1 6, q 1 6, q 0, q 0, q 0, q 0, q 0],
        [q 1 8, q 0, q 3 8, q 0, q 0, q 0, q 0],
        [q 1 8, q 0, q 3 8, q 0, q 0, q 0, q 0],
        [q 1 2, q 0, q (-3) 2, q 0, q 2, q 0, q 0],
        [q 1 6, q 0, q 0, q 0, q 2 3, q 1 6, q 0]]
  b := [q 1 6, q 0, q 0, q 0, q 2 3, q 1 6, q 0]
  c := [q 0, q 1 3, q 1 3, q 1 2, q 1 2, q 1, q 1]
  b2 := none
  order := 4
  orderEmbedded := 3

/-- `butcher.py` 95-96: the classes stored in `RK_SCHEMES`, in the order of their definition. -/
def rkSchemes : List RKTable :=
  [tFE, tRK21, tRK2, tHEUN2, tRK32, tRK33, tRK53, tRK4, tRK4_38, tRK65, tCashKarp, tBE,
   tMidPoint, tTRAP, tSDIRK2, tSDIRK2_2, tSDIRK3, tDIRK43, tGAUSS_LG, tSDIRK54, tEDIRK43,
   tEDIRK4, tESDIRK43, tESDIRK53, tARK548L2SAERK, tARK548L2SAESDIRK, tARK548L2SAESDIRK2,
   tARK548L2SAERK2, tARK324L2SAERK, tARK324L2SAESDIRK, tARK222EDIRK, tARK222ERK, tARK443ESDIRK,
   tARK443ERK, tARK343ESDIRK, tARK343ERK, tARK4EDIRK, tARK4ERK]

end QMat.Tables
